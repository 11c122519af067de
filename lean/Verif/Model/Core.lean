/-
Core vocabulary of the model: how a Rust computation's outcome, the error enum,
`HashMap`, `Vec` indexing and iterator loops are represented.
-/
namespace Gamma

/-- `graph::Error` — /repo/src/graph/error.rs:1-7. -/
inductive Error where
  | missingNode (id : Nat)
  | duplicateNode (id : Nat)
  | missingEdge (sid tid : Nat)
  | duplicateEdge (sid tid : Nat)
  deriving DecidableEq, Repr

/-- Outcome of running a piece of Rust.
* `ok a`: normal return of `a` (for functions returning `Result`: `Ok(a)`),
* `err e`: the function returned `Err(e)`,
* `panic msg`: the thread panicked with message `msg`,
* `timeout`: not a Rust outcome; a loop or recursion of the model used up its step budget
  (`fuel`).  A run that gives `timeout` for every budget is a run that never ends. -/
inductive Out (α : Type) where
  | ok (a : α)
  | err (e : Error)
  | panic (msg : String)
  | timeout
  deriving DecidableEq, Repr

namespace Out

/-- Sequencing; on a `Result` this is the `?` operator. -/
def bind {α β : Type} (x : Out α) (f : α → Out β) : Out β :=
  match x with
  | ok a => f a
  | err e => err e
  | panic m => panic m
  | timeout => timeout

instance : Monad Out where
  pure := Out.ok
  bind := Out.bind

/-- `Result::expect(msg)` / `Result::unwrap()`: `Err` becomes a panic. -/
def expect {α : Type} (msg : String) : Out α → Out α
  | err _ => panic msg
  | x => x

@[simp] theorem ok_bind {α β : Type} (a : α) (f : α → Out β) : (Out.ok a >>= f) = f a := rfl
@[simp] theorem err_bind {α β : Type} (e : Error) (f : α → Out β) :
    ((Out.err e : Out α) >>= f) = .err e := rfl
@[simp] theorem panic_bind {α β : Type} (m : String) (f : α → Out β) :
    ((Out.panic m : Out α) >>= f) = .panic m := rfl
@[simp] theorem timeout_bind {α β : Type} (f : α → Out β) :
    ((Out.timeout : Out α) >>= f) = .timeout := rfl
@[simp] theorem pure_eq {α : Type} (a : α) : (pure a : Out α) = .ok a := rfl
@[simp] theorem expect_ok {α : Type} (m : String) (a : α) : (Out.ok a).expect m = .ok a := rfl
@[simp] theorem expect_err {α : Type} (m : String) (e : Error) :
    (Out.err e : Out α).expect m = .panic m := rfl

end Out

/-- `std::collections::HashMap<usize, β>` as an association list with at most one entry per key.
The *contents* are what the list holds; the list order is only a default iteration order — every
place where the Rust code iterates over a `HashMap` takes the iteration order from a separate,
universally quantified argument (see `HashOrder` in `Model/Matching.lean`). -/
abbrev HMap (β : Type) := List (Nat × β)

namespace HMap

/-- `HashMap::get`. -/
def get {β : Type} (m : HMap β) (k : Nat) : Option β := m.lookup k

/-- `HashMap::contains_key`. -/
def containsKey {β : Type} (m : HMap β) (k : Nat) : Bool := (m.get k).isSome

/-- `HashMap::remove`. -/
def remove {β : Type} (m : HMap β) (k : Nat) : HMap β := m.filter (fun e => e.1 != k)

/-- `HashMap::insert`, `VacantEntry::insert`, `OccupiedEntry::insert`: the key now maps to `v`. -/
def insert {β : Type} (m : HMap β) (k : Nat) (v : β) : HMap β := (k, v) :: m.remove k

end HMap

/-- Indexing `v[i]` on a `Vec`: out of range panics. -/
def vecIndex {α : Type} (v : List α) (i : Nat) : Out α :=
  match v[i]? with
  | some a => .ok a
  | none => .panic "index out of bounds"

/-- `for x in iter { body }`, where `next` is the iterator's `Iterator::next` (it returns the item
or `None`, and the iterator's new state) and `body` updates the loop's local state `b`.
`fuel` bounds the number of calls to `next`. -/
def forLoop {σ α β : Type} (next : σ → Out (Option α × σ)) (body : β → α → Out β) :
    (fuel : Nat) → σ → β → Out β
  | 0, _, _ => .timeout
  | n + 1, s, b =>
    next s >>= fun r =>
      match r with
      | (none, _) => .ok b
      | (some a, s') => body b a >>= fun b' => forLoop next body n s' b'

/-- `iter.collect::<Vec<_>>()`. -/
def collect {σ α : Type} (next : σ → Out (Option α × σ)) (fuel : Nat) (s : σ) : Out (List α) :=
  forLoop next (fun acc a => .ok (acc ++ [a])) fuel s []

end Gamma
