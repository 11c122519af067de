import Verif.Model.Matching
import Verif.Proofs.Basic
/-
Budgets: a run that ends within a budget ends the same way within every larger one.
-/
namespace Gamma

/-- `x` ran out of budget, or `y` is the same outcome. -/
def Out.Le {α : Type} (x y : Out α) : Prop := x = .timeout ∨ y = x

namespace Out.Le
variable {α β : Type}

theorem rfl {x : Out α} : Out.Le x x := .inr (Eq.refl _)

theorem timeout {x : Out α} : Out.Le .timeout x := .inl (Eq.refl _)

theorem bind {x y : Out α} {f g : α → Out β} (h : Out.Le x y) (hf : ∀ a, Out.Le (f a) (g a)) :
    Out.Le (x >>= f) (y >>= g) := by
  rcases h with h | h
  · subst h; exact .timeout
  · subst h
    cases y with
    | ok a => exact hf a
    | err e => exact .rfl
    | panic m => exact .rfl
    | timeout => exact .rfl

theorem expect {x y : Out α} {m : String} (h : Out.Le x y) : Out.Le (x.expect m) (y.expect m) := by
  rcases h with h | h
  · subst h; exact .timeout
  · subst h; exact .rfl

theorem eq {x y z : Out α} (h : Out.Le x y) (hx : x = z) (hz : z ≠ .timeout) : y = z := by
  rcases h with h | h
  · exact absurd (hx.symm.trans h) hz
  · exact h.trans hx

theorem trans {x y z : Out α} (h : Out.Le x y) (h' : Out.Le y z) : Out.Le x z := by
  rcases h with h | h
  · exact .inl h
  · subst h; exact h'

theorem ite {c : Prop} [Decidable c] {x y x' y' : Out α} (h : Out.Le x y) (h' : Out.Le x' y') :
    Out.Le (if c then x else x') (if c then y else y') := by split <;> assumption

end Out.Le

section
variable {σ α β : Type}

theorem forLoop_le {nx nx' : σ → Out (Option α × σ)} {bd bd' : β → α → Out β}
    (h1 : ∀ s, Out.Le (nx s) (nx' s)) (h2 : ∀ b a, Out.Le (bd b a) (bd' b a)) {n m : Nat} (hnm : n ≤ m)
    (s : σ) (b : β) : Out.Le (forLoop nx bd n s b) (forLoop nx' bd' m s b) := by
  induction n generalizing m s b with
  | zero => exact .timeout
  | succ n ih =>
    obtain ⟨m, rfl⟩ : ∃ k, m = k + 1 := ⟨m - 1, by omega⟩
    unfold forLoop
    refine (h1 s).bind ?_
    rintro ⟨o, s'⟩
    cases o with
    | none => exact .rfl
    | some a => exact (h2 b a).bind (fun b' => ih (by omega) s' b')

theorem foldlM_le {f f' : β → α → Out β} (h : ∀ b a, Out.Le (f b a) (f' b a)) (l : List α) (b : β) :
    Out.Le (l.foldlM f b) (l.foldlM f' b) := by
  induction l generalizing b with
  | nil => exact .rfl
  | cons a l ih => rw [List.foldlM_cons, List.foldlM_cons]; exact (h b a).bind ih

end

theorem tryFromDfs_le {g : GraphI} {n m : Nat} (h : n ≤ m) (d : DepthFirst) :
    Out.Le (DefaultGraph.tryFromDfs g n d) (DefaultGraph.tryFromDfs g m d) :=
  forLoop_le (fun _ => .rfl) (fun _ _ => .rfl) h _ _

theorem components_next_le {g : GraphI} {n m : Nat} (h : n ≤ m) (c : Components) :
    Out.Le (Components.next g n c) (Components.next g m c) := by
  unfold Components.next
  split
  · exact .rfl
  · exact Out.Le.rfl.bind (fun t => (tryFromDfs_le h t).expect.bind (fun _ => .rfl))

theorem collect_components_le {g : GraphI} {n m : Nat} (h : n ≤ m) :
    Out.Le (Components.all g n) (Components.all g m) :=
  forLoop_le (components_next_le h) (fun _ _ => .rfl) h _ _

theorem greedyComponent_le {n m : Nat} (h : n ≤ m) (s : List Nat × Pairing) (c : DefaultGraph) :
    Out.Le (greedyComponent n s c) (greedyComponent m s c) := by
  unfold greedyComponent
  split
  · exact .rfl
  · exact Out.Le.rfl.bind (fun t => forLoop_le (fun _ => .rfl) (fun _ _ => .rfl) h _ _)

theorem greedy_le {g : GraphI} {n m : Nat} (h : n ≤ m) : Out.Le (greedy g n) (greedy g m) := by
  unfold greedy
  exact (forLoop_le (components_next_le h) (greedyComponent_le h) h _ _).bind (fun _ => .rfl)

/-! ### Matching -/

theorem pathLoop_le {f : Forest} {n m : Nat} (h : n ≤ m) (x : Option Nat) (acc : List Nat) :
    Out.Le (f.pathLoop n x acc) (f.pathLoop m x acc) := by
  induction n generalizing m x acc with
  | zero => exact .timeout
  | succ n ih =>
    obtain ⟨m, rfl⟩ : ∃ k, m = k + 1 := ⟨m - 1, by omega⟩
    cases x with
    | none => exact .rfl
    | some id =>
      unfold Forest.pathLoop
      split
      · exact .rfl
      · exact ih (by omega) _ _

theorem forestPath_le {f : Forest} {n m : Nat} (h : n ≤ m) (x : Nat) : Out.Le (f.path n x) (f.path m x) := by
  unfold Forest.path
  split
  · exact .rfl
  · exact (pathLoop_le h _ _).bind (fun _ => .rfl)

namespace Blossom

theorem rotateToHead_le {g : GraphI} {sid n m : Nat} (h : n ≤ m) (copy : List Nat) :
    Out.Le (rotateToHead g sid n copy) (rotateToHead g sid m copy) := by
  induction n generalizing m copy with
  | zero => exact .timeout
  | succ n ih =>
    obtain ⟨m, rfl⟩ : ∃ k, m = k + 1 := ⟨m - 1, by omega⟩
    unfold rotateToHead
    exact Out.Le.rfl.bind (fun _ => Out.Le.rfl.bind (fun _ => .ite (ih (by omega) _) .rfl))

theorem rotateToLast_le {g : GraphI} {tid n m : Nat} (h : n ≤ m) (copy : List Nat) :
    Out.Le (rotateToLast g tid n copy) (rotateToLast g tid m copy) := by
  induction n generalizing m copy with
  | zero => exact .timeout
  | succ n ih =>
    obtain ⟨m, rfl⟩ : ∃ k, m = k + 1 := ⟨m - 1, by omega⟩
    unfold rotateToLast
    split
    · exact .rfl
    · exact Out.Le.rfl.bind (fun _ => .ite (ih (by omega) _) .rfl)

theorem liftThrough_le {g : GraphI} {n m : Nat} (h : n ≤ m) (bp left right : List Nat) (sid tid : Nat) :
    Out.Le (liftThrough n bp left right sid tid g) (liftThrough m bp left right sid tid g) := by
  unfold liftThrough
  exact (rotateToHead_le h _).bind (fun _ => .rfl)

theorem lift_le {g : GraphI} {n m : Nat} (h : n ≤ m) (b : Blossom) (path : List Nat) :
    Out.Le (b.lift n path g) (b.lift m path g) := by
  unfold lift
  split
  · exact .rfl
  · refine .ite .rfl (.ite ?_ (.ite ?_ ?_))
    · unfold liftLeftBlossom
      split
      · exact .rfl
      · exact (rotateToHead_le h _).bind (fun _ => .rfl)
    · unfold liftBlossomRight
      exact Out.Le.rfl.bind (fun _ => (rotateToLast_le h _).bind (fun _ => .rfl))
    · unfold liftLeftBlossomRight
      split
      · exact .rfl
      · exact Out.Le.rfl.bind (fun _ => (liftThrough_le h _ _ _ _ _).bind (fun _ => .ite .rfl (liftThrough_le h _ _ _ _ _)))

end Blossom

section
variable {pf : Platform} {ord : HashOrder} {rec rec' : GraphI → Pairing → Out (Option (List Nat))}

theorem processBlossom_le {n m : Nat} (h : n ≤ m) (hr : ∀ g p, Out.Le (rec g p) (rec' g p))
    (left right : List Nat) (g : GraphI) (p : Pairing) :
    Out.Le (processBlossom pf ord n rec left right g p) (processBlossom pf ord m rec' left right g p) := by
  unfold processBlossom
  refine Out.Le.rfl.bind (fun _ => Out.Le.rfl.bind (fun _ => Out.Le.rfl.bind (fun _ => Out.Le.rfl.bind (fun _ =>
    (hr _ _).bind (fun r => ?_)))))
  cases r with
  | none => exact .rfl
  | some path => exact (Blossom.lift_le h _ _).bind (fun _ => .rfl)

theorem evenPath_le {n m : Nat} (h : n ≤ m) (hr : ∀ g p, Out.Le (rec g p) (rec' g p))
    (v : Nat) (pathW : List Nat) (g : GraphI) (f : Forest) (p : Pairing) :
    Out.Le (evenPath pf ord n rec v pathW g f p) (evenPath pf ord m rec' v pathW g f p) := by
  unfold evenPath
  refine (forestPath_le h _).bind (fun r => ?_)
  cases r with
  | none => exact .rfl
  | some path => exact .ite (processBlossom_le h hr _ _ _ _) .rfl

theorem apInner_le {n m : Nat} (h : n ≤ m) (hr : ∀ g p, Out.Le (rec g p) (rec' g p)) (g : GraphI) (p : Pairing)
    (v : Nat) {k j : Nat} (hkj : k ≤ j) (f : Forest) (mk : Marker) :
    Out.Le (apInner pf ord n rec g p v k f mk) (apInner pf ord m rec' g p v j f mk) := by
  induction k generalizing j f mk with
  | zero => exact .timeout
  | succ k ih =>
    obtain ⟨j, rfl⟩ : ∃ i, j = i + 1 := ⟨j - 1, by omega⟩
    unfold apInner
    refine Out.Le.rfl.bind (fun ow => ?_)
    cases ow with
    | none => exact .rfl
    | some w =>
      refine (forestPath_le h _).bind (fun pw => ?_)
      cases pw with
      | some pathW =>
        exact .ite ((evenPath_le h hr _ _ _ _ _).bind (fun _ => .rfl)) (Out.Le.rfl.bind (fun _ => ih (by omega) _ _))
      | none =>
        exact Out.Le.rfl.bind (fun _ => Out.Le.rfl.bind (fun _ => Out.Le.rfl.bind (fun _ => Out.Le.rfl.bind (fun _ =>
          ih (by omega) _ _))))

theorem apOuter_le {n m : Nat} (h : n ≤ m) (hr : ∀ g p, Out.Le (rec g p) (rec' g p)) (g : GraphI) (p : Pairing)
    {k j : Nat} (hkj : k ≤ j) (f : Forest) (mk : Marker) :
    Out.Le (apOuter pf ord n rec g p k f mk) (apOuter pf ord m rec' g p j f mk) := by
  induction k generalizing j f mk with
  | zero => exact .timeout
  | succ k ih =>
    obtain ⟨j, rfl⟩ : ∃ i, j = i + 1 := ⟨j - 1, by omega⟩
    unfold apOuter
    refine Out.Le.rfl.bind (fun ov => ?_)
    split
    · exact .rfl
    · refine (apInner_le h hr _ _ _ h _ _).bind (fun fl => ?_)
      cases fl with
      | ret r => exact .rfl
      | fall s => exact Out.Le.rfl.bind (fun _ => ih (by omega) _ _)

/-- With one iteration order for all calls, a larger budget changes nothing. -/
theorem augmentingPath_le {n m : Nat} (h : n ≤ m) (g : GraphI) (p : Pairing) :
    Out.Le (augmentingPath pf (fun _ => ord) n g p) (augmentingPath pf (fun _ => ord) m g p) := by
  induction n generalizing m g p with
  | zero => exact .timeout
  | succ n ih =>
    obtain ⟨m, rfl⟩ : ∃ i, m = i + 1 := ⟨m - 1, by omega⟩
    unfold augmentingPath
    exact Out.Le.rfl.bind (fun _ => Out.Le.rfl.bind (fun _ =>
      apOuter_le (by omega) (fun g p => ih (by omega) g p) g p (by omega) _ _))

theorem maximumMatching_le {n m : Nat} (h : n ≤ m) (g : GraphI) (p : Pairing) :
    Out.Le (maximumMatching pf n (fun _ _ => ord) g p) (maximumMatching pf m (fun _ _ => ord) g p) := by
  induction n generalizing m g p with
  | zero => exact .timeout
  | succ n ih =>
    obtain ⟨m, rfl⟩ : ∃ i, m = i + 1 := ⟨m - 1, by omega⟩
    unfold maximumMatching
    refine (augmentingPath_le (by omega) g p).bind (fun r => ?_)
    cases r with
    | none => exact .rfl
    | some path =>
      exact Out.Le.rfl.bind (fun _ => (ih (by omega) _ _).bind (fun _ => ih (by omega) _ _))

end

end Gamma
