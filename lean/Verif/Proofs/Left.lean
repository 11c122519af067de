import Verif.Proofs.Unchecked
/-
What `maximum_matching` leaves behind when it returns, panics or is cut short.
-/
namespace Gamma
open Pairing Blossom

/-- The outcome, without what is left of the pairing if there is a failure. -/
def Out.ofLeft : Pairing × Out Unit → Out Pairing
  | (p, .ok ()) => .ok p
  | (_, .err e) => .err e
  | (_, .panic m) => .panic m
  | (_, .timeout) => .timeout

theorem augmentLoopLeft_eq (path : List Nat) (p : Pairing) : augmentLoop path p = Out.ofLeft (augmentLoopLeft path p) := by
  induction path, p using augmentLoopLeft.induct with
  | case1 p => rfl
  | case2 p x => rfl
  | case3 p a b rest ih => rw [augmentLoop, augmentLoopLeft]; exact ih

theorem augmentLeft_eq (p : Pairing) (path : List Nat) : p.augment path = Out.ofLeft (p.augmentLeft path) := by
  unfold Pairing.augment Pairing.augmentLeft
  split
  · rfl
  · exact augmentLoopLeft_eq _ _

theorem augmentLeft_ok {p p1 : Pairing} {path : List Nat} (h : p.augment path = .ok p1) : p.augmentLeft path = (p1, .ok ()) := by
  rw [augmentLeft_eq] at h
  rcases e : p.augmentLeft path with ⟨q, o⟩
  rw [e] at h
  cases o with
  | ok u => cases u; simp only [Out.ofLeft] at h; injection h with h; rw [h]
  | _ => simp [Out.ofLeft] at h

/-- The two models of `maximum_matching` agree. -/
theorem maximumMatchingLeft_eq (pf : Platform) (n : Nat) : ∀ (ords : List Bool → Nat → HashOrder) (g : GraphI) (p : Pairing),
    maximumMatching pf n ords g p = Out.ofLeft (maximumMatchingLeft pf n ords g p) := by
  induction n with
  | zero => intros; rfl
  | succ n ih =>
    intro ords g p
    unfold maximumMatching maximumMatchingLeft
    cases augmentingPath pf (ords []) n g p with
    | err e => rfl
    | panic m => rfl
    | timeout => rfl
    | ok r =>
      cases r with
      | none => rfl
      | some path =>
        rw [Out.ok_bind]
        simp only
        rw [augmentLeft_eq]
        rcases p.augmentLeft path with ⟨p1, o⟩
        cases o with
        | err e => rfl
        | panic m => rfl
        | timeout => rfl
        | ok u =>
          cases u
          show (Out.ok p1 >>= _) = _
          rw [Out.ok_bind]
          simp only
          rw [ih]
          rcases maximumMatchingLeft pf n (fun l => ords (false :: l)) g p1 with ⟨p2, o⟩
          cases o with
          | err e => rfl
          | panic m => rfl
          | timeout => rfl
          | ok u =>
            cases u
            show (Out.ok p2 >>= _) = _
            rw [Out.ok_bind]
            simp only
            exact ih _ _ _

section
variable {g : GraphI} {pf : Platform}

/-- Whatever holds of a pairing and is kept by augmentation along the paths found holds of what is left; and what is left when a
panic ends the run is where the panic occurs. -/
theorem maximumMatchingLeft_inv {I : Pairing → Prop}
    (hI : ∀ (p p1 : Pairing) (path : List Nat) (ords : Nat → HashOrder) (n : Nat), I p → (∀ i, (ords i).Valid) →
      augmentingPath pf ords n g p = .ok (some path) → p.augment path = .ok p1 → I p1) (n : Nat) :
    ∀ {p : Pairing} {ords : List Bool → Nat → HashOrder}, I p → (∀ l i, (ords l i).Valid) →
      I (maximumMatchingLeft pf n ords g p).1 ∧
      ∀ m, (maximumMatchingLeft pf n ords g p).2 = .panic m → ∃ (ords' : Nat → HashOrder) (k : Nat), (∀ i, (ords' i).Valid) ∧ k < n ∧
        ((augmentingPath pf ords' k g (maximumMatchingLeft pf n ords g p).1 = .panic m) ∨
        (∃ path, augmentingPath pf ords' k g (maximumMatchingLeft pf n ords g p).1 = .ok (some path) ∧ path.length % 2 = 1 ∧
          m = "even path augmentation")) := by
  induction n with
  | zero => intro p ords hp _; exact ⟨hp, fun m h => by cases h⟩
  | succ n ih =>
    intro p ords hp ho
    unfold maximumMatchingLeft
    cases ha : augmentingPath pf (ords []) n g p with
    | err e => exact ⟨hp, fun m h => by cases h⟩
    | timeout => exact ⟨hp, fun m h => by cases h⟩
    | panic m =>
      refine ⟨hp, fun m' h => ?_⟩
      simp only at h
      injection h with h
      subst h
      exact ⟨_, n, ho [], by omega, .inl ha⟩
    | ok r =>
      cases r with
      | none => exact ⟨hp, fun m h => by cases h⟩
      | some path =>
        simp only
        rcases Nat.mod_two_eq_zero_or_one path.length with h0 | h0
        · obtain ⟨p1, e1⟩ : ∃ p1, p.augment path = .ok p1 := by
            obtain ⟨q, e⟩ := augmentLoop_ok p path h0
            exact ⟨q, by unfold Pairing.augment; simp [h0, e]⟩
          rw [augmentLeft_ok e1]
          simp only
          have i1 := hI p p1 path _ n hp (ho []) ha e1
          have j := ih i1 (fun l i => ho (false :: l) i)
          rcases e2 : maximumMatchingLeft pf n (fun l => ords (false :: l)) g p1 with ⟨p2, o⟩
          rw [e2] at j
          have lift : ∀ {q : Pairing} {o : Out Unit}, (I q ∧ ∀ m, o = .panic m → ∃ (ords' : Nat → HashOrder) (k : Nat),
              (∀ i, (ords' i).Valid) ∧ k < n ∧ ((augmentingPath pf ords' k g q = .panic m) ∨
              (∃ path, augmentingPath pf ords' k g q = .ok (some path) ∧ path.length % 2 = 1 ∧ m = "even path augmentation"))) →
            (I q ∧ ∀ m, o = .panic m → ∃ (ords' : Nat → HashOrder) (k : Nat),
              (∀ i, (ords' i).Valid) ∧ k < n + 1 ∧ ((augmentingPath pf ords' k g q = .panic m) ∨
              (∃ path, augmentingPath pf ords' k g q = .ok (some path) ∧ path.length % 2 = 1 ∧ m = "even path augmentation"))) := by
            rintro q o ⟨a, b⟩
            refine ⟨a, fun m hm => ?_⟩
            obtain ⟨o', k, c1, c2, c3⟩ := b m hm
            exact ⟨o', k, c1, by omega, c3⟩
          cases o with
          | ok u => cases u; exact lift (ih j.1 (fun l i => ho (true :: l) i))
          | err e => exact lift j
          | panic m => exact lift j
          | timeout => exact lift j
        · have : p.augmentLeft path = (p, .panic "even path augmentation") := by
            unfold Pairing.augmentLeft; simp [h0]
          rw [this]
          refine ⟨hp, fun m h => ?_⟩
          simp only at h
          injection h with h
          exact ⟨_, n, ho [], by omega, .inr ⟨path, ha, h0, h.symm⟩⟩

/-- What is left is one of the pairings the run goes through. -/
theorem maximumMatchingLeft_visits (n : Nat) (p : Pairing) {ords : List Bool → Nat → HashOrder} (ho : ∀ l i, (ords l i).Valid) :
    Visits pf g p (maximumMatchingLeft pf n ords g p).1 :=
  (maximumMatchingLeft_inv (I := Visits pf g p)
    (fun r r' path ords k hv ho' e e' => .step r r' path hv ⟨ords, k, ho', e⟩ e') n .start ho).1

/-- What is found, for a pairing of nodes of `g`. -/
theorem Finds.any (hg : g.Lawful) (he : g.edges.Nodup) {p : Pairing} (hs : p.Symmetric) (hi : p.Inside g) {path : List Nat}
    (h : Finds pf g p path) : path.Nodup ∧ (∀ x ∈ path, x ∈ g.nodes) ∧ ∃ M, IsMatching (g.withPairs p) M ∧ p.order < 2 * M.length := by
  obtain ⟨ords, n, ho, e⟩ := h
  have := augmentingPath_any (pf := pf) ho n (withPairs_plus hg hs) (withPairs_lawful hg hs hi) (withPairs_edges hg he hs)
    (withPairs_matches hg hs hi)
  rw [e] at this
  exact this

theorem Visits.any (hg : g.Lawful) (he : g.edges.Nodup) {p r : Pairing} (hs : p.Symmetric) (hi : p.Inside g)
    (h : Visits pf g p r) : r.Symmetric ∧ r.Inside g := by
  induction h with
  | start => exact ⟨hs, hi⟩
  | step r r' path _ hf ha ih =>
    obtain ⟨a, b, -⟩ := hf.any hg he ih.1 ih.2
    rcases Nat.mod_two_eq_zero_or_one path.length with h0 | h0
    · exact augment_any ih.1 ih.2 a b h0 ha
    · rw [augment_odd _ _ h0] at ha; simp at ha

/-- What is left does not depend on the hash orders. -/
theorem maximumMatchingLeft_congr (hg : g.Lawful) (he : g.edges.Nodup) (n : Nat) :
    ∀ {p q : Pairing} {ords ords' : List Bool → Nat → HashOrder}, p.Symmetric → p.Inside g → q.Symmetric → q.get = p.get →
    (∀ l i, (ords l i).Valid) → (∀ l i, (ords' l i).Valid) →
    (maximumMatchingLeft pf n ords' g q).2 = (maximumMatchingLeft pf n ords g p).2 ∧
    (maximumMatchingLeft pf n ords g p).1.Symmetric ∧ (maximumMatchingLeft pf n ords g p).1.Inside g ∧
    (maximumMatchingLeft pf n ords' g q).1.Symmetric ∧
    (maximumMatchingLeft pf n ords' g q).1.get = (maximumMatchingLeft pf n ords g p).1.get := by
  induction n with
  | zero => intro p q ords ords' hs hi hq hpq _ _; exact ⟨rfl, hs, hi, hq, hpq⟩
  | succ n ih =>
    intro p q ords ords' hs hi hq hpq ho ho'
    have hH := withPairs_lawful hg hs hi
    have hHe := withPairs_edges hg he hs
    have hM := withPairs_matches hg hs hi
    have hP := withPairs_plus hg hs
    have h1 := augmentingPath_any (pf := pf) (ho []) n hP hH hHe hM
    have heq := augmentingPath_congr_any (pf := pf) (ho []) (ho' []) n hP hH hHe hM hq hpq
    unfold maximumMatchingLeft
    rw [heq]
    generalize augmentingPath pf (ords []) n g p = o at h1 ⊢
    match o, h1 with
    | .ok none, h => exact ⟨rfl, hs, hi, hq, hpq⟩
    | .ok (some path), ⟨a, b, _⟩ =>
      simp only
      rcases Nat.mod_two_eq_zero_or_one path.length with h0 | h0
      · obtain ⟨p1, q1, e1, e2, e3⟩ := get_eq_of_augment hs hq hpq.symm a h0
        obtain ⟨s1, i1⟩ := augment_any hs hi a b h0 e1
        obtain ⟨s2, -⟩ := augment_any hq (fun v w h => hi v w (by rw [← hpq]; exact h)) a b h0 e2
        rw [augmentLeft_ok e1, augmentLeft_ok e2]
        simp only
        have j := ih s1 i1 s2 e3.symm (fun l i => ho (false :: l) i) (fun l i => ho' (false :: l) i)
        generalize maximumMatchingLeft pf n (fun l => ords (false :: l)) g p1 = r at j ⊢
        generalize maximumMatchingLeft pf n (fun l => ords' (false :: l)) g q1 = r' at j ⊢
        obtain ⟨p2, o⟩ := r
        obtain ⟨q2, o'⟩ := r'
        obtain ⟨j1, j2, j3, j4, j5⟩ := j
        simp only at j1 j2 j3 j4 j5
        subst j1
        cases o' with
        | ok u => cases u; exact ih j2 j3 j4 j5 (fun l i => ho (true :: l) i) (fun l i => ho' (true :: l) i)
        | err e => exact ⟨rfl, j2, j3, j4, j5⟩
        | panic m => exact ⟨rfl, j2, j3, j4, j5⟩
        | timeout => exact ⟨rfl, j2, j3, j4, j5⟩
      · have : ∀ p : Pairing, p.augmentLeft path = (p, .panic "even path augmentation") := by
          intro p; unfold Pairing.augmentLeft; simp [h0]
        rw [this, this]
        exact ⟨rfl, hs, hi, hq, hpq⟩
    | .err e, h => exact h.elim
    | .panic m, h => exact ⟨rfl, hs, hi, hq, hpq⟩
    | .timeout, h => exact ⟨rfl, hs, hi, hq, hpq⟩

/-- After a panic, the next call on what is left panics at once. -/
theorem maximumMatchingLeft_retry (hg : g.Lawful) (he : g.edges.Nodup) {n N : Nat} {p q : Pairing} {m : String}
    {ords ords' : List Bool → Nat → HashOrder} (hs : p.Symmetric) (hi : p.Inside g)
    (ho : ∀ l i, (ords l i).Valid) (ho' : ∀ l i, (ords' l i).Valid) (hN : n ≤ N)
    (h : maximumMatchingLeft pf n ords g p = (q, .panic m)) : maximumMatchingLeft pf N ords' g q = (q, .panic m) := by
  obtain ⟨hv, hp⟩ := maximumMatchingLeft_inv (I := Visits pf g p) (n := n) (p := p) (ords := ords)
    (fun r r' path ords k hv ho' e e' => .step r r' path hv ⟨ords, k, ho', e⟩ e') .start ho
  obtain ⟨o2, k, hk1, hk2, hk3⟩ := hp m (by rw [h])
  rw [h] at hv hk3
  obtain ⟨s1, i1⟩ := hv.any hg he hs hi
  have key : ∀ o, augmentingPath pf o2 k g q = o → o ≠ .timeout → ∀ j, k ≤ j → augmentingPath pf (ords' []) j g q = o := by
    intro o e hne j hj
    have hH := withPairs_lawful hg s1 i1
    have hHe := withPairs_edges hg he s1
    have hM := withPairs_matches hg s1 i1
    have hP := withPairs_plus hg s1
    have c1 := augmentingPath_congr_any (pf := pf) hk1 (ords' := fun _ => _root_.id) (fun _ => HashOrder.id_valid) k hP hH hHe hM s1 rfl
    have c2 := augmentingPath_congr_any (pf := pf) (ords := fun _ => _root_.id) (fun _ => HashOrder.id_valid) (ho' []) j hP hH hHe hM s1 rfl
    rw [c2]
    exact (augmentingPath_le (pf := pf) (ord := _root_.id) hj g q).eq (c1.trans e) hne
  obtain ⟨N, rfl⟩ : ∃ i, N = i + 1 := ⟨N - 1, by omega⟩
  unfold maximumMatchingLeft
  rcases hk3 with e | ⟨path, e, h0, rfl⟩
  · rw [key _ e (by simp) N (by omega)]
  · rw [key _ e (by simp) N (by omega)]
    simp only
    have : q.augmentLeft path = (q, .panic "even path augmentation") := by unfold Pairing.augmentLeft; simp [h0]
    rw [this]

end
end Gamma
