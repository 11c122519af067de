import Verif.Model.Core
/-
Model of /repo/src/matching/pairing.rs.
-/
namespace Gamma

/-- An iteration order for a `HashMap<usize, usize>`: the order in which `iter()` visits the entries.
Rust leaves it unspecified (and randomises it per map), so it is an argument of the model; the
theorems quantify over every `ord` that permutes the entries (`HashOrder.Valid`). -/
abbrev HashOrder := List (Nat × Nat) → List (Nat × Nat)

/-- The only thing known about an iteration order: each entry is visited exactly once. -/
def HashOrder.Valid (ord : HashOrder) : Prop := ∀ l, (ord l).Perm l

/-- `Pairing` — /repo/src/matching/pairing.rs:5-7. -/
structure Pairing where
  pairs : HMap Nat
  deriving DecidableEq, Repr

namespace Pairing

/-- `Pairing::new` — pairing.rs:10-14. -/
def new : Pairing := { pairs := [] }

/-- `Pairing::order` — pairing.rs:16-18. -/
def order (p : Pairing) : Nat := p.pairs.length

/-- `Pairing::has_node` — pairing.rs:20-22. -/
def hasNode (p : Pairing) (id : Nat) : Bool := p.pairs.containsKey id

/-- `Pairing::insert` (private) — pairing.rs:54-69. -/
def insert (p : Pairing) (sid tid : Nat) : Pairing :=
  match p.pairs.get sid with
  | some old =>
    if old == tid then p
    else { pairs := (p.pairs.insert sid tid).remove old }
  | none => { pairs := p.pairs.insert sid tid }

/-- `Pairing::pair` — pairing.rs:24-27. -/
def pair (p : Pairing) (sid tid : Nat) : Pairing := (p.insert sid tid).insert tid sid

/-- `Pairing::edges` — pairing.rs:29-33: the entries with key below value, in the map's iteration
order `ord`. -/
def edges (ord : HashOrder) (p : Pairing) : List (Nat × Nat) :=
  (ord p.pairs).filter (fun e => decide (e.1 < e.2))

/-- The pairing loop of `augment` — pairing.rs:40-44: `path[0]` with `path[1]`, `path[2]` with
`path[3]`, … (`path[i + 1]` out of range panics; unreachable after the length check). -/
def augmentLoop : List Nat → Pairing → Out Pairing
  | [], p => .ok p
  | [_], _ => .panic "index out of bounds"
  | a :: b :: rest, p => augmentLoop rest (p.pair a b)

/-- `Pairing::augment` — pairing.rs:35-45. -/
def augment (p : Pairing) (path : List Nat) : Out Pairing :=
  if path.length % 2 == 1 then .panic "even path augmentation"
  else augmentLoop path p

/-- The loop of `augmentLoop` with the pairing as it stands when the loop ends, whether normally or by a panic
(pairing.rs:40-44): what the owner of the pairing finds after `catch_unwind`. -/
def augmentLoopLeft : List Nat → Pairing → Pairing × Out Unit
  | [], p => (p, .ok ())
  | [_], p => (p, .panic "index out of bounds")
  | a :: b :: rest, p => augmentLoopLeft rest (p.pair a b)

/-- `Pairing::augment` (pairing.rs:35-45) with the pairing as it stands when the call ends, by returning or panicking.
The panic of lines 36-38 comes before the first change. -/
def augmentLeft (p : Pairing) (path : List Nat) : Pairing × Out Unit :=
  if path.length % 2 == 1 then (p, .panic "even path augmentation")
  else augmentLoopLeft path p

/-- `Pairing::mate` — pairing.rs:47-52.  (The panic message's number is dropped.) -/
def mate (p : Pairing) (id : Nat) : Out Nat :=
  match p.pairs.get id with
  | some m => .ok m
  | none => .panic "missing node"

/-- `#[derive(PartialEq)]` on `Pairing` — pairing.rs:4: `HashMap` equality, i.e. same number of entries
and every entry of the one is an entry of the other. -/
def eq (p q : Pairing) : Bool :=
  p.pairs.length == q.pairs.length && p.pairs.all (fun e => q.pairs.get e.1 == some e.2)

end Pairing
end Gamma
