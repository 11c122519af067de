import Verif.Proofs.Halt
import Verif.Props.Touch
/-
Property C84: calls of `maximum_matching` that never end.
-/
namespace Gamma
open Pairing Blossom

/-! ### C84 -/

theorem get_of_mate {p q : Pairing} (h : ∀ x, p.mate x = q.mate x) : p.get = q.get := by
  funext x
  cases e : p.get x with
  | none =>
    cases e' : q.get x with
    | none => rfl
    | some y => have := (h x).trans (mate_eq_ok.2 e'); rw [mate_eq_ok, e] at this; cases this
  | some y => exact (mate_eq_ok.1 ((h x).symm.trans (mate_eq_ok.2 e))).symm

theorem mate_of_get {p q : Pairing} (h : p.get = q.get) (x : Nat) : p.mate x = q.mate x := by
  have h1 : p.pairs.get x = q.pairs.get x := congrFun h x
  unfold Pairing.mate; rw [h1]

section
variable (g : GraphI) (hg : g.Lawful) (he : g.edges.Nodup) (p : Pairing) (hp : p.Matches g) (pf : Platform)
  (ords : List Bool → Nat → HashOrder) (ho : ∀ l i, (ords l i).Valid)
include hg he hp ho

/-- **C84.**  A call of `maximum_matching` never ends exactly if it comes to a pairing from which some rounds (at least one) of search
and augmentation lead back to the same mates. -/
theorem C84_never_ends_iff_goes_in_circles :
    (∀ fuel, maximumMatching pf fuel ords g p = .timeout) ↔
      ∃ j k r r', 0 < k ∧ Leads pf g j p r ∧ Leads pf g k r r' ∧ ∀ x, r'.mate x = r.mate x := by
  constructor
  · intro h
    obtain ⟨r, hr⟩ := leads_of_timeout (pf := pf) hg he g.nodes.length.factorial hp ho le_rfl (h _)
    obtain ⟨j, k, s, s', hk, -, h1, h2, h3⟩ := circle_of_leads hg he hp hr
    exact ⟨j, k, s, s', hk, h1, h2, mate_of_get h3⟩
  · rintro ⟨j, k, r, r', hk, h1, h2, h3⟩ fuel
    exact diverges_of_circle hg he hp hk h1 h2 (get_of_mate h3) ho fuel

/-- **C84, early.**  The circle then closes within as many rounds as the nodes have permutations. -/
theorem C84_circle_closes_early (h : ∀ fuel, maximumMatching pf fuel ords g p = .timeout) :
    ∃ j k r r', 0 < k ∧ j + k ≤ g.nodes.length.factorial ∧ Leads pf g j p r ∧ Leads pf g k r r' ∧ ∀ x, r'.mate x = r.mate x := by
  obtain ⟨r, hr⟩ := leads_of_timeout (pf := pf) hg he g.nodes.length.factorial hp ho le_rfl (h _)
  obtain ⟨j, k, s, s', hk, hle, h1, h2, h3⟩ := circle_of_leads hg he hp hr
  exact ⟨j, k, s, s', hk, hle, h1, h2, mate_of_get h3⟩

/-- **C84, it can be decided.**  Whether the call ends is settled by one budget: if that does not suffice, none does. -/
theorem C84_one_budget_settles (h : maximumMatching pf
      (g.nodes.length + (g.nodes.length / 2 + g.loops) + g.nodes.length.factorial + 2) ords g p = .timeout) (fuel : Nat) :
    maximumMatching pf fuel ords g p = .timeout := by
  obtain ⟨r, hr⟩ := leads_of_timeout (pf := pf) hg he g.nodes.length.factorial hp ho (le_of_eq (by unfold GraphI.depth; rfl)) h
  obtain ⟨j, k, s, s', hk, -, h1, h2, h3⟩ := circle_of_leads hg he hp hr
  exact diverges_of_circle hg he hp hk h1 h2 h3 ho fuel

end

theorem leads_of_tally {g : GraphI} (hg : g.Lawful) (he : g.edges.Nodup) {pf : Platform} (n : Nat) :
    ∀ {p : Pairing} {ords : List Bool → Nat → HashOrder} {q : Pairing} {t : Tally}, p.Matches g →
    (∀ l i, (ords l i).Valid) → maximumMatchingTally pf n ords g p = .ok (q, t) → Leads pf g t.augmentations p q := by
  induction n with
  | zero => intro p ords q t _ _ h; simp [maximumMatchingTally] at h
  | succ n ih =>
    intro p ords q t hp ho h
    rw [maximumMatchingTally, Out.bind_eq_ok] at h
    obtain ⟨r, h1, h2⟩ := h
    cases r with
    | none => injection h2 with h2; injection h2 with h2 h3; subst h2 h3; exact .none _
    | some path =>
      simp only at h2
      rw [Out.bind_eq_ok] at h2
      obtain ⟨p1, h2, h3⟩ := h2
      rw [Out.bind_eq_ok] at h3
      obtain ⟨⟨p2, t2⟩, h3, h4⟩ := h3
      simp only at h4
      rw [Out.bind_eq_ok] at h4
      obtain ⟨⟨p3, t3⟩, h4, h5⟩ := h4
      injection h5 with h5
      injection h5 with h5 h6
      subst h5 h6
      have hf : Finds pf g p path := ⟨_, _, ho [], h1⟩
      have hp1 := (Visits.step p p1 path .start hf h2).matches_ hg he hp
      have l2 := ih hp1 (fun l i => ho (false :: l) i) h3
      have hp2 := l2.matches_ hg he hp1
      have l3 := ih hp2 (fun l i => ho (true :: l) i) h4
      have append : ∀ {i k : Nat} {r s t : Pairing}, Leads pf g i r s → Leads pf g k s t → Leads pf g (i + k) r t := by
        intro i k r s t h1
        induction h1 with
        | none r => intro h2; simpa using h2
        | round i r r1 s path hf ha _ ih => intro h2; rw [show i + 1 + k = (i + k) + 1 by omega]; exact .round _ _ _ _ _ hf ha (ih h2)
      have := Leads.round _ _ _ _ _ hf h2 (append l2 l3)
      rw [show 1 + t2.augmentations + t3.augmentations = t2.augmentations + t3.augmentations + 1 by omega]
      exact this

/-- **C84, rounds.**  A call that returns has led, in as many rounds as it made augmentations, to what it returns, and made fewer
augmentations than the nodes have permutations. -/
theorem C84_rounds_of_a_call (g : GraphI) (hg : g.Lawful) (he : g.edges.Nodup) (p : Pairing) (hp : p.Matches g) (pf : Platform)
    (ords : List Bool → Nat → HashOrder) (ho : ∀ l i, (ords l i).Valid) (fuel : Nat) (q : Pairing) (t : Tally)
    (h : maximumMatchingTally pf fuel ords g p = .ok (q, t)) :
    Leads pf g t.augmentations p q ∧ t.augmentations < g.nodes.length.factorial := by
  have hl := leads_of_tally hg he fuel hp ho h
  refine ⟨hl, ?_⟩
  by_contra hge
  obtain ⟨r, hr, -⟩ := hl.split (i := g.nodes.length.factorial) (by omega)
  obtain ⟨j, k, s, s', hk, -, h1, h2, h3⟩ := circle_of_leads hg he hp hr
  have h4 := diverges_of_circle hg he hp hk h1 h2 h3 ho fuel
  have h5 := ((C81_same_outcome pf fuel ords g p).1 q).2 ⟨t, h⟩
  rw [h4] at h5; cases h5

/-! #### Examples -/

/-- The circle of `C42_diverges_where_odd_cycles_touch`: six rounds lead to a pairing from which two rounds lead back to it. -/
example (b : Bool) : ∃ r r' : Pairing, Leads (pf64 b) spiroLoopG.toI 6 .new r ∧ Leads (pf64 b) spiroLoopG.toI 2 r r' ∧
    ∀ x, r'.mate x = r.mate x := by
  have find : ∀ b, ∀ i ∈ [0, 1, 2, 3, 4, 5, 6, 7], ∃ path, augmentingPath (pf64 b) (fun _ => _root_.id) 40 spiroLoopG.toI (spiroRun[i]?.getD .new) = .ok (some path) ∧
      (spiroRun[i]?.getD .new).augment path = .ok (spiroRun[if i = 7 then 6 else i + 1]?.getD .new) := by
    have : ∀ b, ∀ i ∈ [0, 1, 2, 3, 4, 5, 6, 7], (match augmentingPath (pf64 b) (fun _ => _root_.id) 40 spiroLoopG.toI (spiroRun[i]?.getD .new) with
      | .ok (some path) => (spiroRun[i]?.getD .new).augment path == .ok (spiroRun[if i = 7 then 6 else i + 1]?.getD .new)
      | _ => false) = true := by decide +kernel
    intro b i hi
    have h := this b i hi
    split at h
    · rename_i path e; exact ⟨path, e, by simpa using h⟩
    · cases h
  have step : ∀ {k : Nat} (i j : Nat) {r}, i ∈ [0, 1, 2, 3, 4, 5, 6, 7] → (if i = 7 then 6 else i + 1) = j →
      Leads (pf64 b) spiroLoopG.toI k (spiroRun[j]?.getD .new) r → Leads (pf64 b) spiroLoopG.toI (k + 1) (spiroRun[i]?.getD .new) r := by
    rintro k i j r hi rfl h
    obtain ⟨path, h1, h2⟩ := find b i hi
    exact .round _ _ _ _ path ⟨_, 40, fun _ => HashOrder.id_valid, h1⟩ h2 h
  refine ⟨spiroRun[6]?.getD .new, spiroRun[6]?.getD .new, ?_, ?_, fun _ => rfl⟩
  · exact step 0 1 (by decide) rfl (step 1 2 (by decide) rfl (step 2 3 (by decide) rfl (step 3 4 (by decide) rfl
      (step 4 5 (by decide) rfl (step 5 6 (by decide) rfl (.none _))))))
  · exact step 6 7 (by decide) rfl (step 7 6 (by decide) rfl (.none _))

end Gamma
