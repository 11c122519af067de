import Verif.Proofs.Left
/-
How many searches and how much stack `maximum_matching` needs.
-/
namespace Gamma
open Pairing Blossom

section
variable {g : GraphI} {pf : Platform}

/-- The tally changes nothing. -/
theorem maximumMatchingTally_eq (n : Nat) : ∀ (ords : List Bool → Nat → HashOrder) (p : Pairing),
    maximumMatching pf n ords g p = (maximumMatchingTally pf n ords g p >>= fun r => .ok r.1) := by
  induction n with
  | zero => intros; rfl
  | succ n ih =>
    intro ords p
    unfold maximumMatching maximumMatchingTally
    rw [bind_assoc]
    congr 1; funext r
    cases r with
    | none => rfl
    | some path =>
      simp only [bind_assoc]
      congr 1; funext p1
      rw [ih, bind_assoc]
      congr 1; funext r2
      rw [Out.ok_bind, ih]
      rfl

/-- A pairing that is as large as can be takes one search. -/
theorem maximumMatchingTally_stay (hg : g.Lawful) (he : g.edges.Nodup) {p : Pairing} (hs : p.Symmetric) (hi : p.Inside g)
    (hmax : ∀ M, IsMatching (g.withPairs p) M → 2 * M.length ≤ p.order) {n : Nat} {ords : List Bool → Nat → HashOrder}
    (ho : ∀ l i, (ords l i).Valid) {q : Pairing} {t : Tally} (h : maximumMatchingTally pf n ords g p = .ok (q, t)) :
    q = p ∧ t = ⟨1, 0, 1⟩ := by
  cases n with
  | zero => simp [maximumMatchingTally] at h
  | succ n =>
    rw [maximumMatchingTally, Out.bind_eq_ok] at h
    obtain ⟨r, h1, h2⟩ := h
    cases r with
    | none => injection h2 with h2; injection h2 with h2 h3; exact ⟨h2.symm, h3.symm⟩
    | some path =>
      obtain ⟨-, -, M, hM, hl⟩ := Finds.any hg he hs hi ⟨_, _, ho [], h1⟩
      have := hmax M hM
      omega

theorem maximumMatchingTally_spec (hg : g.Lawful) (he : g.edges.Nodup) (n : Nat) :
    ∀ {p : Pairing} {ords : List Bool → Nat → HashOrder} {q : Pairing} {t : Tally}, p.Symmetric → p.Inside g →
    (∀ l i, (ords l i).Valid) → maximumMatchingTally pf n ords g p = .ok (q, t) →
    t.searches = 2 * t.augmentations + 1 ∧ t.depth = t.augmentations + 1 := by
  induction n with
  | zero => intro p ords q t _ _ _ h; simp [maximumMatchingTally] at h
  | succ n ih =>
    intro p ords q t hs hi ho h
    rw [maximumMatchingTally, Out.bind_eq_ok] at h
    obtain ⟨r, h1, h2⟩ := h
    cases r with
    | none => injection h2 with h2; injection h2 with h2 h3; subst h3; exact ⟨rfl, rfl⟩
    | some path =>
      simp only at h2
      rw [Out.bind_eq_ok] at h2
      obtain ⟨p1, h2, h3⟩ := h2
      rw [Out.bind_eq_ok] at h3
      obtain ⟨⟨p2, t2⟩, h3, h4⟩ := h3
      simp only at h4
      rw [Out.bind_eq_ok] at h4
      obtain ⟨⟨p3, t3⟩, h4, h5⟩ := h4
      injection h5 with h5
      injection h5 with h5 h6
      have hv := (Visits.step p p1 path .start ⟨_, _, ho [], h1⟩ h2).any hg he hs hi
      obtain ⟨a1, a2⟩ := ih hv.1 hv.2 (fun l i => ho (false :: l) i) h3
      have hm : maximumMatching pf n (fun l => ords (false :: l)) g p1 = .ok p2 := by
        rw [maximumMatchingTally_eq, h3]; rfl
      rcases maximumMatching_any (pf := pf) hg he n hv.1 hv.2 (fun l i => ho (false :: l) i) with ⟨q', e, s1, i1, A, c, hC⟩ | e | ⟨m, e, -⟩ | e
      · rw [hm] at e; injection e with e; subst e
        obtain ⟨-, rfl⟩ := maximumMatchingTally_stay hg he s1 i1
          (fun M hM => hC.maximum (withPairs_lawful hg s1 i1) (withPairs_matches hg s1 i1) hM) (fun l i => ho (true :: l) i) h4
        subst h6
        simp only at a1 a2 ⊢
        omega
      all_goals rw [hm] at e; simp at e

/-- Each augmentation pairs two more nodes, if the odd cycles are apart. -/
theorem maximumMatchingTally_order (hg : g.Lawful) (he : g.edges.Nodup)
    (hfine : ∀ p path, p.Matches g → Finds pf g p path → Fine g p path) (n : Nat) :
    ∀ {p : Pairing} {ords : List Bool → Nat → HashOrder} {q : Pairing} {t : Tally}, p.Matches g →
    (∀ l i, (ords l i).Valid) → maximumMatchingTally pf n ords g p = .ok (q, t) →
    q.Matches g ∧ q.order = p.order + 2 * t.augmentations := by
  induction n with
  | zero => intro p ords q t _ _ h; simp [maximumMatchingTally] at h
  | succ n ih =>
    intro p ords q t hp ho h
    rw [maximumMatchingTally, Out.bind_eq_ok] at h
    obtain ⟨r, h1, h2⟩ := h
    cases r with
    | none => injection h2 with h2; injection h2 with h2 h3; subst h2 h3; exact ⟨hp, rfl⟩
    | some path =>
      simp only at h2
      rw [Out.bind_eq_ok] at h2
      obtain ⟨p1, h2, h3⟩ := h2
      rw [Out.bind_eq_ok] at h3
      obtain ⟨⟨p2, t2⟩, h3, h4⟩ := h3
      simp only at h4
      rw [Out.bind_eq_ok] at h4
      obtain ⟨⟨p3, t3⟩, h4, h5⟩ := h4
      injection h5 with h5
      injection h5 with h5 h6
      subst h5 h6
      have hG := hfine p path hp ⟨_, _, ho [], h1⟩
      have hm := (Visits.step p p1 path .start ⟨_, _, ho [], h1⟩ h2).matches_ hg he hp
      obtain ⟨a1, a2⟩ := ih hm (fun l i => ho (false :: l) i) h3
      obtain ⟨b1, b2⟩ := ih a1 (fun l i => ho (true :: l) i) h4
      have := hG.order hp.symmetric h2
      refine ⟨b1, ?_⟩
      simp only
      omega

theorem augmentingPathNested_eq_trace {p : Pairing} (ords : Nat → HashOrder) (limit n : Nat) :
    augmentingPathNested pf ords (limit + 1) (n + 1) g p = (apTrace (ords n) n g p >>= fun r =>
      match r with
      | none => .ok none
      | some (v, pw, f) => evenPath pf (ords n) n (augmentingPathNested pf ords limit n) v pw g f p) := by
  rw [augmentingPathNested]
  unfold apTrace
  simp only [bind_assoc]
  congr 1; funext marker
  congr 1; funext forest
  rw [apOuter_eq]
  exact apOuterG_bind (fun v pw f => .ok (some (v, pw, f))) none (fun r => match r with
      | none => .ok none
      | some (v, pw, f) => evenPath pf (ords n) n (augmentingPathNested pf ords limit n) v pw g f p) none rfl n forest marker

/-- So many nested calls are enough. -/
theorem augmentingPathNested_eq {ords : Nat → HashOrder} (ho : ∀ i, (ords i).Valid) (limit : Nat) :
    ∀ {g : GraphI} {p : Pairing} (n : Nat), g.Lawful → g.edges.Nodup → p.Matches g → g.depth < limit →
    augmentingPathNested pf ords limit n g p = augmentingPath pf ords n g p := by
  induction limit with
  | zero => intro g p n _ _ _ h; omega
  | succ limit ih =>
    intro g p n hg he hp hd
    cases n with
    | zero => rfl
    | succ n =>
      rw [augmentingPathNested_eq_trace, augmentingPath_eq_trace]
      rcases apTrace_ren ((GraphI.Along.refl hg).but p) hp hp.symmetric (fun v hv => by simp) (ho n) (ho n) n with
        ⟨h1, -⟩ | ⟨f, P, v, w, hE, h1, -⟩ | ⟨h1, -⟩
      · rw [h1]; rfl
      · rw [h1, Out.ok_bind, Out.ok_bind]
        simp only
        have hF := hE.forest
        have hv := hE.even_v
        have hw := hE.even_w
        unfold evenPath
        rw [hF.path]
        by_cases hn : n < (P v).length
        · rw [if_pos hn, Out.timeout_bind, Out.timeout_bind]
        have hv0 : P v ≠ [] := by intro e; rw [e] at hv; simp at hv
        rw [if_neg hn, if_neg hv0, Out.ok_bind, Out.ok_bind]
        simp only
        by_cases hl : (P v).getLast? = (P w).getLast?
        · have hl' : ((P v).getLast? == (P w).getLast?) = true := by simpa using hl
          rw [if_pos hl', if_pos hl']
          obtain ⟨B, base, s, hB, hFd⟩ := hF.found hg hp hv hw hE.adj hl
          rcases processBlossom_eq (pf := pf) hg he hp hp rfl (ho n) (ho n) (fuel := n) (rec := augmentingPathNested pf ords limit n)
            (rec' := augmentingPath pf ords n) hB hFd with ⟨m, e1, e2, -⟩ | ⟨b, g', p', q', hb, hc, hc', hget, hhr, e1, e2⟩
          · rw [e1, e2]
          · subst hb
            rw [e1, e2]
            have hd' := hFd.depth_lt hc
            rw [ih n hc.lawful' hc.edges' hc.matches' (by omega),
              (augmentingPath_spec (pf := pf) ho ho n hc.lawful' hc.edges' hc.matches' hc'.matches' hget).2]
        · have hl' : ((P v).getLast? == (P w).getLast?) = false := by simpa using hl
          rw [hl']; rfl
      · rw [h1]; rfl

/-- Without odd cycles there are no nested calls. -/
theorem augmentingPathNested_bip {ords : Nat → HashOrder} (ho : ∀ i, (ords i).Valid) (limit : Nat) {p : Pairing} (n : Nat)
    (hg : g.Lawful) (hp : p.Matches g) {col : Nat → Bool} (hcol : ∀ u v, g.Adj u v → col u ≠ col v) :
    augmentingPathNested pf ords (limit + 1) n g p = augmentingPath pf ords n g p := by
  cases n with
  | zero => rfl
  | succ n =>
    rw [augmentingPathNested_eq_trace, augmentingPath_eq_trace]
    rcases apTrace_ren ((GraphI.Along.refl hg).but p) hp hp.symmetric (fun v hv => by simp) (ho n) (ho n) n with
      ⟨h1, -⟩ | ⟨f, P, v, w, hE, h1, -⟩ | ⟨h1, -⟩
    · rw [h1]; rfl
    · rw [h1, Out.ok_bind, Out.ok_bind]
      simp only
      have hF := hE.forest
      have hv := hE.even_v
      have hw := hE.even_w
      unfold evenPath
      rw [hF.path]
      by_cases hn : n < (P v).length
      · rw [if_pos hn, Out.timeout_bind, Out.timeout_bind]
      have hv0 : P v ≠ [] := by intro e; rw [e] at hv; simp at hv
      rw [if_neg hn, if_neg hv0, Out.ok_bind, Out.ok_bind]
      simp only
      by_cases hl : (P v).getLast? = (P w).getLast?
      · obtain ⟨B, base, s, hB, hFd⟩ := hF.found hg hp hv hw hE.adj hl
        exact (cyclic_odd hFd.cyclic hFd.odd hcol).elim
      · have hl' : ((P v).getLast? == (P w).getLast?) = false := by simpa using hl
        rw [hl']; rfl
    · rw [h1]; rfl

end
end Gamma
