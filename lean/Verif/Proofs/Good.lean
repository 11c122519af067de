import Verif.Proofs.Apart
/-
Paths that improve a pairing, carried through un-contraction in graphs whose odd cycles are apart.
-/
namespace Gamma
open Pairing Blossom

/-- A path of even length, closed under mates, with an unpaired node and at most two of them, on which every inner node that is on
no odd cycle is next to its mate. -/
structure Good (g : GraphI) (p : Pairing) (path : List Nat) : Prop where
  isPath : IsPath g path
  even : path.length % 2 = 0
  closed : ∀ x y, x ∈ path → p.get x = some y → y ∈ path
  unpaired : ∃ x ∈ path, p.get x = none
  few : ∃ s t, ∀ x ∈ path, p.get x = none → x = s ∨ x = t
  inner : ∀ l a x c r, path = l ++ a :: x :: c :: r → (∀ C, OddCycle g C → x ∉ C) → p.get x = some a ∨ p.get x = some c

theorem Blossom.IsPath.reverse {g : GraphI} (hg : g.Lawful) {l : List Nat} (h : IsPath g l) : IsPath g l.reverse := by
  refine ⟨by simpa using h.ne, List.nodup_reverse.2 h.nodup, ?_, fun x hx => h.mem x (List.mem_reverse.1 hx)⟩
  rw [List.isChain_reverse]
  exact h.chain.imp (fun a b hab => hg.adj_symm _ _ hab)

theorem Good.reverse {g : GraphI} {p : Pairing} (hg : g.Lawful) {l : List Nat} (h : Good g p l) : Good g p l.reverse := by
  refine ⟨h.isPath.reverse hg, by simpa using h.even, ?_, ?_, ?_, ?_⟩
  · intro x y hx e
    exact List.mem_reverse.2 (h.closed x y (List.mem_reverse.1 hx) e)
  · obtain ⟨x, hx, e⟩ := h.unpaired
    exact ⟨x, List.mem_reverse.2 hx, e⟩
  · obtain ⟨s, t, h1⟩ := h.few
    exact ⟨s, t, fun x hx => h1 x (List.mem_reverse.1 hx)⟩
  · intro L a x c r e hx
    have : l = r.reverse ++ c :: x :: a :: L.reverse := by
      have := congrArg List.reverse e
      simpa using this
    exact (h.inner _ _ _ _ _ this hx).symm

theorem Good.of_augmenting {g : GraphI} {p : Pairing} (hs : p.Symmetric) {l : List Nat} (h : p.Augmenting l) (hl : IsPath g l) :
    Good g p l := by
  refine ⟨hl, h.even, ?_, ?_, ?_, ?_⟩
  · intro x y hx e
    exact h.mate_on_path hs hx e
  · cases l with
    | nil => exact absurd rfl hl.ne
    | cons a l => exact ⟨a, by simp, hasNode_false.1 (h.first a rfl)⟩
  · refine ⟨l.head hl.ne, l.getLast hl.ne, fun x hx e => ?_⟩
    have hev := h.even
    obtain ⟨i, hi, rfl⟩ := List.getElem_of_mem hx
    by_cases h0 : i = 0
    · subst h0; left; rw [List.head_eq_getElem]
    by_cases h1 : i = l.length - 1
    · subst h1; right; rw [List.getLast_eq_getElem]
    exfalso
    rcases Nat.mod_two_eq_zero_or_one i with hm | hm
    · have := hs.get_get (mate_eq_ok.1 (h.mates (i / 2 - 1) l[i - 1] l[i] (by
        rw [show 2 * (i / 2 - 1) + 1 = i - 1 by omega]; exact List.getElem?_eq_getElem _) (by
        rw [show 2 * (i / 2 - 1) + 2 = i by omega]; exact List.getElem?_eq_getElem _)))
      rw [e] at this; cases this
    · have := mate_eq_ok.1 (h.mates (i / 2) l[i] (l[i + 1]'(by omega)) (by
        rw [show 2 * (i / 2) + 1 = i by omega]; exact List.getElem?_eq_getElem _) (by
        rw [show 2 * (i / 2) + 2 = i + 1 by omega]; exact List.getElem?_eq_getElem _))
      rw [e] at this; cases this
  · rintro l1 a x c r rfl -
    rcases Nat.mod_two_eq_zero_or_one l1.length with h0 | h0
    · right
      have := h.mates (l1.length / 2) x c (by
        rw [show 2 * (l1.length / 2) + 1 = l1.length + 1 by omega]; simp) (by
        rw [show 2 * (l1.length / 2) + 2 = l1.length + 2 by omega]; simp)
      exact mate_eq_ok.1 this
    · left
      have := h.mates (l1.length / 2) a x (by
        rw [show 2 * (l1.length / 2) + 1 = l1.length by omega]; simp) (by
        rw [show 2 * (l1.length / 2) + 2 = l1.length + 1 by omega]; simp)
      exact hs.get_get (mate_eq_ok.1 this)

variable {g g' : GraphI} {b : Blossom} {p p' : Pairing} {base : Nat} {S : Nat → Prop}

/-! ### Mates in the contracted graph -/

theorem Blossom.Con.get_out (h : Con g p b base g' p') {x y : Nat} (hx : x ≠ b.id) (hy : y ≠ b.id)
    (e : p'.get x = some y) : p.get x = some y := by
  obtain ⟨-, a, c, hac, e1, e2⟩ := (h.get' x y).1 e
  have ha : a ∉ b.path := fun hm => hx (e1 ▸ kap_in hm)
  have hc : c ∉ b.path := fun hm => hy (e2 ▸ kap_in hm)
  rw [kap_out ha] at e1; rw [kap_out hc] at e2
  rw [← e1, ← e2]; exact hac

theorem Blossom.Con.get_of_id (h : Con g p b base g' p') {y : Nat} (hy : y ≠ b.id)
    (e : p'.get b.id = some y) : p.get base = some y := by
  obtain ⟨-, a, c, hac, e1, e2⟩ := (h.get' _ y).1 e
  have hc : c ∉ b.path := fun hm => hy (e2 ▸ kap_in hm)
  have ha := (h.free.kap_eq_id (h.matches_.mem_left h.lawful hac)).1 e1
  have := h.flower.base_of_out ha (fun z hz => by rw [hac] at hz; injection hz with hz; exact hz ▸ hc)
  rw [kap_out hc] at e2
  rw [← this, ← e2]; exact hac

theorem Blossom.Con.get_to_id (h : Con g p b base g' p') {x : Nat} (hx : x ≠ b.id)
    (e : p'.get x = some b.id) : p.get x = some base :=
  h.matches_.symmetric.get_get (h.get_of_id hx (h.matches'.symmetric.get_get e))

/-- The mates of outside nodes, seen from the contracted graph. -/
theorem Blossom.Con.get_up (h : Con g p b base g' p') {x y : Nat} (hx : x ∉ b.path) (hxn : x ∈ g.nodes) (e : p.get x = some y) :
    p'.get x = some (kap b y) := by
  rw [h.get']
  refine ⟨?_, x, y, e, kap_out hx, rfl⟩
  intro hk
  by_cases hy : y ∈ b.path
  · rw [kap_in hy] at hk; exact h.free x hxn hx hk
  · rw [kap_out hy] at hk; exact h.matches_.symmetric.ne e hk

theorem Blossom.Con.get_base_up (h : Con g p b base g' p') {y : Nat} (e : p.get base = some y) : p'.get b.id = some y := by
  have hy := h.flower.base_out y e
  rw [h.get']
  exact ⟨fun hk => h.free y (h.matches_.mem_right h.lawful e) hy hk.symm, base, y, e, kap_in h.flower.base_mem, kap_out hy⟩

/-! ### The general step -/

theorem append_cons_inj {l l' r r' : List Nat} {x : Nat} (hn : (l ++ x :: r).Nodup) (e : l ++ x :: r = l' ++ x :: r') :
    l = l' ∧ r = r' := by
  have h1 : x ∉ l := fun h => (List.nodup_append.1 hn).2.2 x h x (by simp) rfl
  have h2 : x ∉ l' := fun h => (List.nodup_append.1 (e ▸ hn)).2.2 x h x (by simp) rfl
  rcases List.append_eq_append_iff.1 e with ⟨m, e1, e2⟩ | ⟨m, e1, e2⟩
  · cases m with
    | nil => simp at e1 e2; exact ⟨e1.symm, e2⟩
    | cons z m => simp at e2; rw [e1, ← e2.1] at h2; simp at h2
  · cases m with
    | nil => simp at e1 e2; exact ⟨e1, e2.symm⟩
    | cons z m => simp at e2; rw [e1, ← e2.1] at h1; simp at h1

theorem inner_left (h : Con g p b base g' p') (hA : g.ApartOn S) (hS : ∀ x ∈ b.path, S x) (hc : Cyclic g b.path) (ho : b.path.length % 2 = 1)
    {left right arc : List Nat} (hG : Good g' p' (left ++ b.id :: right)) (hl : IsPath g (left ++ arc ++ right))
    (hsub : ∀ x ∈ arc, x ∈ b.path) (hne : arc ≠ []) {L R : List Nat} {a x c : Nat} (hx : x ∈ left)
    (e : left ++ arc ++ right = L ++ a :: x :: c :: R) (hodd : ∀ C, OddCycle g C → x ∉ C) :
    p.get x = some a ∨ p.get x = some c := by
  have hnd' := List.nodup_append.1 hG.isPath.nodup
  have hidL : b.id ∉ left := fun hm => hnd'.2.2 _ hm _ (by simp) rfl
  have hidne : ∀ z ∈ left, z ≠ b.id := fun z hz e => hidL (e ▸ hz)
  have hout : ∀ z ∈ left, z ∈ g.nodes ∧ z ∉ b.path := fun z hz => h.out_of_ne (hG.isPath.mem z (by simp [hz])) (hidne z hz)
  have hodd' : ∀ C, OddCycle g' C → x ∉ C := by
    intro C hC hxC
    obtain ⟨D, hD, mD⟩ := h.lift_cycle' hA hS hc ho hC
    exact hodd D hD ((mD x).2 ⟨x, hxC, by simp [unkap, hidne x hx]⟩)
  obtain ⟨l1, l2, rfl⟩ := List.append_of_mem hx
  have hnd := hl.nodup
  have e' : l1 ++ x :: (l2 ++ arc ++ right) = (L ++ [a]) ++ x :: (c :: R) := by simpa using e
  obtain ⟨e1, e2⟩ := append_cons_inj (by simpa using hnd) e'
  subst e1
  have hax : a ≠ b.id := hidne a (by simp)
  have hxx : x ≠ b.id := hidne x hx
  cases l2 with
  | cons z m =>
    simp at e2
    obtain ⟨rfl, -⟩ := e2
    rcases hG.inner L a x z (m ++ b.id :: right) (by simp) hodd' with h1 | h1
    · exact .inl (h.get_out hxx hax h1)
    · exact .inr (h.get_out hxx (hidne z (by simp)) h1)
  | nil =>
    rcases hG.inner L a x b.id right (by simp) hodd' with h1 | h1
    · exact .inl (h.get_out hxx hax h1)
    · right
      have h2 := h.get_to_id hxx h1
      cases arc with
      | nil => exact absurd rfl hne
      | cons d arc =>
        simp at e2
        obtain ⟨rfl, -⟩ := e2
        have hch := hl.chain
        have : g.Adj x d := by
          have h3 : (L ++ [a] ++ [x] ++ d :: arc ++ right) = (L ++ [a]) ++ x :: d :: (arc ++ right) := by simp
          rw [h3] at hch
          exact (List.isChain_cons_cons.1 hch.right_of_append).1
        rw [h2, nbr_unique h.lawful hA hS h.flower.nodup hc ho (hout x hx).2 h.flower.base_mem (hsub d (by simp))
          (h.matches_.adj' h2) this]

theorem good_of_arc (h : Con g p b base g' p') (hA : g.ApartOn S) (hS : ∀ x ∈ b.path, S x) (hc : Cyclic g b.path) (ho : b.path.length % 2 = 1)
    {left right arc : List Nat} (hG : Good g' p' (left ++ b.id :: right)) (hl : IsPath g (left ++ arc ++ right))
    (hsub : ∀ x ∈ arc, x ∈ b.path) (hodd : arc.length % 2 = 1) (hb : base ∈ arc)
    (hcl : ∀ x ∈ arc, x ≠ base → ∃ y ∈ arc, p.get x = some y) : Good g p (left ++ arc ++ right) := by
  have hnd' := List.nodup_append.1 hG.isPath.nodup
  have hidL : b.id ∉ left := fun hm => hnd'.2.2 _ hm _ (by simp) rfl
  have hidR : b.id ∉ right := (List.nodup_cons.1 hnd'.2.1).1
  have hne : arc ≠ [] := List.ne_nil_of_mem hb
  have hout : ∀ z, z ∈ left ∨ z ∈ right → z ≠ b.id ∧ z ∈ g.nodes ∧ z ∉ b.path := by
    intro z hz
    have h1 : z ≠ b.id := by rcases hz with hz | hz <;> (rintro rfl; first | exact hidL hz | exact hidR hz)
    exact ⟨h1, h.out_of_ne (hG.isPath.mem z (by simp; tauto)) h1⟩
  have hmem : ∀ y, y ∈ left ++ b.id :: right → y ≠ b.id → y ∈ left ++ arc ++ right := by
    intro y hy hne; simp at hy ⊢; tauto
  refine ⟨hl, ?_, ?_, ?_, ?_, ?_⟩
  · have := hG.even
    simp at this ⊢; omega
  · intro x y hx hxy
    have outside : x ∈ left ∨ x ∈ right → y ∈ left ++ arc ++ right := by
      intro hx
      obtain ⟨h1, h2, h3⟩ := hout x hx
      have h4 := hG.closed x _ (by simp; tauto) (h.get_up h3 h2 hxy)
      by_cases hy : y ∈ b.path
      · have := h.flower.base_of_out hy (fun z hz => by
          rw [h.matches_.symmetric.get_get hxy] at hz; injection hz with hz; exact hz ▸ h3)
        rw [this]; simp [hb]
      · rw [kap_out hy] at h4
        refine hmem y h4 (h.free y (h.matches_.mem_right h.lawful hxy) hy)
    simp only [List.mem_append] at hx
    rcases hx with (hx | hx) | hx
    · exact outside (.inl hx)
    · by_cases hxb : x = base
      · subst hxb
        have h4 := hG.closed _ _ (by simp) (h.get_base_up hxy)
        exact hmem y h4 (h.free y (h.matches_.mem_right h.lawful hxy) (h.flower.base_out y hxy))
      · obtain ⟨z, hz, e⟩ := hcl x hx hxb
        rw [hxy] at e; injection e with e; subst e
        simp [hz]
    · exact outside (.inr hx)
  · obtain ⟨x, hx, e⟩ := hG.unpaired
    by_cases hxi : x = b.id
    · refine ⟨base, by simp [hb], ?_⟩
      have := h.get_none (h.flower.sub base h.flower.base_mem) (fun _ => rfl)
      rw [kap_in h.flower.base_mem, ← hxi] at this
      exact this.1 e
    · have hx' : x ∈ left ∨ x ∈ right := by simp at hx; tauto
      obtain ⟨-, h2, h3⟩ := hout x hx'
      refine ⟨x, by simp; tauto, ?_⟩
      have := h.get_none h2 (fun hm => absurd hm h3)
      rw [kap_out h3] at this
      exact this.1 e
  · obtain ⟨s, t, hst⟩ := hG.few
    refine ⟨if s = b.id then base else s, if t = b.id then base else t, fun x hx e => ?_⟩
    have key : ∀ y, y = s ∨ y = t → (if y = b.id then base else y) = (if s = b.id then base else s) ∨
        (if y = b.id then base else y) = (if t = b.id then base else t) := by
      rintro y (rfl | rfl) <;> simp
    simp only [List.mem_append] at hx
    by_cases hxa : x ∈ arc
    · have hxb : x = base := by
        by_contra hne
        obtain ⟨y, -, e'⟩ := hcl x hxa hne
        rw [e] at e'; cases e'
      subst hxb
      have h1 := (h.get_none (h.flower.sub x h.flower.base_mem) (fun _ => rfl)).2 e
      rw [kap_in h.flower.base_mem] at h1
      have := key _ (hst b.id (by simp) h1)
      simpa using this
    · have hx' : x ∈ left ∨ x ∈ right := by tauto
      obtain ⟨h1, h2, h3⟩ := hout x hx'
      have h4 := (h.get_none h2 (fun hm => absurd hm h3)).2 e
      rw [kap_out h3] at h4
      have := key _ (hst x (by simp; tauto) h4)
      rw [if_neg h1] at this
      exact this
  · intro L a x c R e hx
    have hxm : x ∈ left ++ arc ++ right := by rw [e]; simp
    simp only [List.mem_append] at hxm
    rcases hxm with (hxm | hxm) | hxm
    · exact inner_left h hA hS hc ho hG hl hsub hne hxm e hx
    · by_cases h3 : 3 ≤ b.path.length
      · exact absurd (hsub x hxm) (hx _ (.of_cyclic h.flower.nodup ho h3 hc))
      · have h1 : b.path.length = 1 := by omega
        obtain ⟨x0, hB⟩ := List.length_eq_one_iff.1 h1
        have hall : ∀ z ∈ arc, z = base := by
          intro z hz
          have e1 := hsub z hz
          have e2 := h.flower.base_mem
          rw [hB] at e1 e2
          simp at e1 e2; rw [e1, e2]
        have harc : arc = [base] := by
          have hn2 : arc.Nodup := by
            have := hl.nodup
            exact (List.nodup_append.1 (List.nodup_append.1 this).1).2.1
          cases arc with
          | nil => exact absurd rfl hne
          | cons u arc =>
            cases arc with
            | nil => rw [hall u (by simp)]
            | cons v arc =>
              exfalso
              rw [List.nodup_cons] at hn2
              apply hn2.1
              rw [hall u (by simp), hall v (by simp)]; simp
        have hxb := hall x hxm
        subst hxb harc
        have hn := hl.nodup
        have e' : left ++ x :: right = (L ++ [a]) ++ x :: (c :: R) := by simpa using e
        obtain ⟨e1, e2⟩ := append_cons_inj (by simpa using hn) e'
        subst e1 e2
        have hid : ∀ C, OddCycle g' C → b.id ∉ C := by
          intro C hC hm
          obtain ⟨D, hD, mD⟩ := h.lift_cycle' hA hS hc ho hC
          exact hx D hD ((mD x).2 ⟨b.id, hm, by simp [unkap]⟩)
        rcases hG.inner L a b.id c R (by simp) hid with h4 | h4
        · exact .inl (h.get_of_id (hout a (.inl (by simp))).1 h4)
        · exact .inr (h.get_of_id (hout c (.inr (by simp))).1 h4)
    · have hG' := hG.reverse h.lawful'
      have hl' := hl.reverse h.lawful
      simp only [List.reverse_append, List.reverse_cons, List.append_assoc, List.cons_append, List.nil_append] at hG' hl'
      rw [← List.append_assoc] at hl'
      have := inner_left (L := R.reverse) (R := L.reverse) (a := c) (x := x) (c := a) h hA hS hc ho hG' hl'
        (fun z hz => hsub z (List.mem_reverse.1 hz)) (by simpa using hne) (List.mem_reverse.2 hxm) (by
          have := congrArg List.reverse e
          simpa using this) hx
      exact this.symm

/-! ### `lift` -/

theorem rotateToLast_rot {g : GraphI} {tid : Nat} (fuel : Nat) : ∀ {B r : List Nat},
    Blossom.rotateToLast g tid fuel B = .ok r → r.IsRotated B := by
  induction fuel with
  | zero => intro B r h; simp [Blossom.rotateToLast] at h
  | succ n ih =>
    intro B r h
    rw [Blossom.rotateToLast] at h
    cases hB : B.getLast? with
    | none => rw [hB] at h; simp at h
    | some c =>
      rw [hB] at h
      simp only at h
      rw [Out.bind_eq_ok] at h
      obtain ⟨e, -, h⟩ := h
      split at h
      · exact (ih h).trans (rotateRight1_rot B)
      · simp at h; subst h; exact List.IsRotated.refl _

theorem pushUntil_form {g : GraphI} {tid : Nat} : ∀ {bl out r : List Nat}, Blossom.pushUntil g tid bl out = .ok r →
    ∃ arc rest, bl = arc ++ rest ∧ r = out ++ arc ∧ (bl ≠ [] → arc ≠ []) := by
  intro bl
  induction bl with
  | nil => intro out r h; simp [Blossom.pushUntil] at h; exact ⟨[], [], rfl, by simp [h], fun h => h⟩
  | cons x bl ih =>
    intro out r h
    rw [Blossom.pushUntil, Out.bind_eq_ok] at h
    obtain ⟨e, -, h⟩ := h
    split at h
    · simp at h; subst h; exact ⟨[x], bl, rfl, rfl, by simp⟩
    · obtain ⟨arc, rest, h1, h2, -⟩ := ih h
      exact ⟨x :: arc, rest, by simp [h1], by simp [h2], by simp⟩

theorem liftThrough_form {g : GraphI} {fuel : Nat} {bp left right l : List Nat} {sid tid : Nat}
    (h : Blossom.liftThrough fuel bp left right sid tid g = .ok l) (hne : bp ≠ []) :
    ∃ arc rest, (arc ++ rest).IsRotated bp ∧ arc ≠ [] ∧ l = left ++ arc ++ right := by
  unfold Blossom.liftThrough at h
  rw [Out.bind_eq_ok] at h
  obtain ⟨bl, h1, h⟩ := h
  rw [Out.bind_eq_ok] at h
  obtain ⟨out, h2, h⟩ := h
  simp at h; subst h
  have hr := rotateToHead_rot _ h1
  obtain ⟨arc, rest, e1, e2, e3⟩ := pushUntil_form h2
  subst e1
  refine ⟨arc, rest, hr, e3 ?_, by rw [e2]⟩
  intro e
  rw [e] at hr
  exact hne (List.isRotated_nil_iff.1 hr.symm)

/-- An odd arc with the base at one end is closed under mates. -/
theorem arc_closed {p : Pairing} {q arc rest B : List Nat} {base : Nat} (hn : B.Nodup) (hB : B.IsRotated (base :: q))
    (hq : Paired p q) (hr : (arc ++ rest).IsRotated B) (ho : arc.length % 2 = 1)
    (hend : arc.head? = some base ∨ arc.getLast? = some base) :
    base ∈ arc ∧ ∀ x ∈ arc, x ≠ base → ∃ y ∈ arc, p.get x = some y := by
  have hrot := hr.trans hB
  obtain ⟨u, v, e1, e2⟩ := rot_form hrot
  subst e1
  have hnd : (arc ++ rest).Nodup := hr.perm.nodup_iff.2 hn
  rcases hend with he | he
  · cases arc with
    | nil => simp at he
    | cons z arc =>
      simp at he; subst he
      have hv : v = [] := by
        cases v with
        | nil => rfl
        | cons w v =>
          simp at e2
          obtain ⟨rfl, e2⟩ := e2
          rw [List.cons_append, List.nodup_cons] at hnd
          exact absurd (by rw [e2]; simp) hnd.1
      subst hv
      simp at e2
      subst e2
      rw [List.append_nil] at hq
      have h1 := (hq.split (by simp at ho; omega)).1
      refine ⟨by simp, ?_⟩
      intro x hx hne
      rcases List.mem_cons.1 hx with h | h
      · exact absurd h hne
      · obtain ⟨y, hy, e⟩ := h1.closed x h
        exact ⟨y, by simp [hy], e⟩
  · rcases List.eq_nil_or_concat arc with rfl | ⟨arc', z, rfl⟩
    · simp at he
    · rw [List.concat_eq_append] at *
      rw [List.getLast?_concat] at he
      injection he with he; subst he
      have e3 : arc' ++ z :: rest = v ++ z :: u := by simpa using e2
      obtain ⟨e4, e5⟩ := append_cons_inj (by simpa using hnd) e3
      subst e4 e5
      have hlen := hq.length
      simp at ho hlen
      have h1 := (hq.split (by omega)).2
      refine ⟨by simp, ?_⟩
      intro x hx hne
      simp at hx
      rcases hx with h | h
      · obtain ⟨y, hy, e⟩ := h1.closed x h
        exact ⟨y, by simp [hy], e⟩
      · exact absurd h hne

theorem Found.rot {s : List Nat} {B : List Nat} (hF : Found g p B base s) : ∃ q, B.IsRotated (base :: q) ∧ Paired p q := by
  obtain ⟨pre, suf, e, h1, h2⟩ := hF.pairs
  refine ⟨suf ++ pre, ?_, h2.append h1⟩
  rw [e]
  have := List.isRotated_append (l := pre) (l' := base :: suf)
  simpa using this

/-- Two arcs, one in each direction, between the same two nodes. -/
theorem arcs_length {B a1 r1 a2 r2 : List Nat} {c d : Nat} (hn : B.Nodup) (h1 : (a1 ++ r1).IsRotated B)
    (h2 : (a2 ++ r2).IsRotated B.reverse) (hc1 : a1.head? = some c) (hc2 : a2.head? = some c)
    (hd1 : a1.getLast? = some d) (hd2 : a2.getLast? = some d) (hcd : c ≠ d) : a1.length + a2.length = B.length + 2 := by
  cases a1 with
  | nil => simp at hc1
  | cons z1 a1 =>
  cases a2 with
  | nil => simp at hc2
  | cons z2 a2 =>
  simp at hc1 hc2
  obtain rfl : z2 = z1 := hc2.trans hc1.symm
  subst hc1
  rcases List.eq_nil_or_concat a1 with rfl | ⟨s1, y1, rfl⟩
  · simp at hd1; exact absurd hd1 hcd
  rcases List.eq_nil_or_concat a2 with rfl | ⟨s2, y2, rfl⟩
  · simp at hd2; exact absurd hd2 hcd
  simp only [List.concat_eq_append] at *
  rw [← List.cons_append, List.getLast?_concat] at hd1 hd2
  injection hd1 with hd1; injection hd2 with hd2
  obtain rfl : y2 = y1 := hd2.trans hd1.symm
  subst hd1
  -- the reverse of the first rotation
  have h3 : (z2 :: (r1.reverse ++ y2 :: s1.reverse)).IsRotated B.reverse := by
    have h4 := h1.reverse
    have e1 : (z2 :: (s1 ++ [y2]) ++ r1).reverse = (r1.reverse ++ y2 :: s1.reverse) ++ [z2] := by simp
    rw [e1] at h4
    have h5 := List.isRotated_append (l := [z2]) (l' := r1.reverse ++ y2 :: s1.reverse)
    exact List.IsRotated.trans (by simpa using h5) h4
  have h6 : (z2 :: (s2 ++ y2 :: r2)).IsRotated (z2 :: (r1.reverse ++ y2 :: s1.reverse)) := by
    have : (z2 :: (s2 ++ [y2]) ++ r2) = z2 :: (s2 ++ y2 :: r2) := by simp
    rw [this] at h2
    exact h2.trans h3.symm
  have hnd : (z2 :: (r1.reverse ++ y2 :: s1.reverse)).Nodup := h3.perm.nodup_iff.2 (List.nodup_reverse.2 hn)
  have e := rot_head h6 hnd
  obtain ⟨e1, e2⟩ := append_cons_inj (e ▸ (List.nodup_cons.1 hnd).2) e
  have hl := h1.perm.length_eq
  subst e1
  simp at hl ⊢
  omega

/-- Un-contraction, the blossom off the path. -/
theorem good_of_out (h : Con g p b base g' p') {path : List Nat} (hG : Good g' p' path) (hid : b.id ∉ path) (hl : IsPath g path)
    (hcy : ∀ C x, OddCycle g' C → x ∈ path → x ∈ C → ∃ D, OddCycle g D ∧ x ∈ D) : Good g p path := by
  have hne : ∀ x ∈ path, x ≠ b.id := fun x hx e => hid (e ▸ hx)
  have hout : ∀ x ∈ path, x ∈ g.nodes ∧ x ∉ b.path := fun x hx => h.out_of_ne (hG.isPath.mem x hx) (hne x hx)
  refine ⟨hl, hG.even, ?_, ?_, ?_, ?_⟩
  · intro x y hx hxy
    have h1 := hG.closed x _ hx (h.get_up (hout x hx).2 (hout x hx).1 hxy)
    by_cases hy : y ∈ b.path
    · rw [kap_in hy] at h1; exact absurd h1 hid
    · rw [kap_out hy] at h1; exact h1
  · obtain ⟨x, hx, e⟩ := hG.unpaired
    refine ⟨x, hx, ?_⟩
    have := h.get_none (hout x hx).1 (fun hm => absurd hm (hout x hx).2)
    rw [kap_out (hout x hx).2] at this
    exact this.1 e
  · obtain ⟨s, t, hst⟩ := hG.few
    refine ⟨s, t, fun x hx e => hst x hx ?_⟩
    have := h.get_none (hout x hx).1 (fun hm => absurd hm (hout x hx).2)
    rw [kap_out (hout x hx).2] at this
    exact this.2 e
  · rintro L a x c R rfl hodd
    have hodd' : ∀ C, OddCycle g' C → x ∉ C := by
      intro C hC hxC
      obtain ⟨D, hD, hxD⟩ := hcy C x hC (by simp) hxC
      exact hodd D hD hxD
    rcases hG.inner L a x c R rfl hodd' with h1 | h1
    · exact .inl (h.get_out (hne x (by simp)) (hne a (by simp)) h1)
    · exact .inr (h.get_out (hne x (by simp)) (hne c (by simp)) h1)

/-- `lift` keeps paths good. -/
theorem lift_good {s : List Nat} (h : Con g p b base g' p') (hF : Found g p b.path base s) (hA : g.ApartOn S) (hS : ∀ x ∈ b.path, S x)
    {path l : List Nat} (hG : Good g' p' path) {fuel : Nat} (hf : b.path.length < fuel) (e : b.lift fuel path g = .ok l) :
    Good g p l := by
  have hc := hF.cyclic
  have ho := hF.odd
  have hB0 : b.path ≠ [] := List.ne_nil_of_mem h.flower.base_mem
  have hl : IsPath g l := by
    obtain ⟨l', e', hl⟩ := lift_ok h hc hG.isPath hf
    rw [e] at e'; injection e' with e'; subst e'; exact hl
  unfold Blossom.lift at e
  cases hi : path.findIdx? (fun pid => pid == b.id) with
  | none =>
    rw [hi] at e
    simp at e; subst e
    rw [List.findIdx?_eq_none_iff] at hi
    have hid : b.id ∉ path := fun hm => by simpa using hi _ hm
    refine good_of_out h hG hid hl (fun C x hC hx hxC => ?_)
    obtain ⟨D, hD, mD⟩ := h.lift_cycle' hA hS hc ho hC
    exact ⟨D, hD, (mD x).2 ⟨x, hxC, by simp [unkap, show x ≠ b.id from fun e => hid (e ▸ hx)]⟩⟩
  | some index =>
    rw [hi] at e
    rw [List.findIdx?_eq_some_iff_getElem] at hi
    obtain ⟨hlt, hget, -⟩ := hi
    simp only [beq_iff_eq] at hget
    have hsplit : path = path.take index ++ b.id :: path.drop (index + 1) := by
      conv_lhs => rw [← List.take_append_drop index path, List.drop_eq_getElem_cons hlt, hget]
    simp only at e
    generalize hL : path.take index = left at hsplit e
    generalize hR : path.drop (index + 1) = right at hsplit e
    subst hsplit
    clear hL hR hget hlt
    -- the whole blossom
    have whole : ∀ r : List Nat, r.IsRotated b.path → l = left ++ r ++ right → Good g p l := by
      rintro r hr rfl
      refine good_of_arc h hA hS hc ho hG hl (fun x hx => (IsRotated.mem hr).1 hx) (by rw [hr.perm.length_eq]; exact ho)
        ((IsRotated.mem hr).2 h.flower.base_mem) ?_
      intro x hx hne
      obtain ⟨y, hy, e⟩ := h.flower.inner x ((IsRotated.mem hr).1 hx) hne
      exact ⟨y, (IsRotated.mem hr).2 hy, e⟩
    rcases List.eq_nil_or_concat left with hl0 | ⟨left', sid, hl0⟩
    · subst hl0
      cases right with
      | nil => have := hG.even; simp at this
      | cons tid right =>
        simp [Blossom.liftBlossomRight, vecIndex] at e
        rw [Out.bind_eq_ok] at e
        obtain ⟨r, h1, h2⟩ := e
        simp at h2
        exact whole r (rotateToLast_rot _ h1) (by simp [← h2])
    · rw [List.concat_eq_append] at hl0
      have hgl : left.getLast? = some sid := by rw [hl0, List.getLast?_concat]
      have hle : left.isEmpty = false := by rw [hl0]; simp
      cases right with
      | nil =>
        simp [hle, Blossom.liftLeftBlossom, hgl] at e
        rw [Out.bind_eq_ok] at e
        obtain ⟨r, h1, h2⟩ := e
        simp at h2
        exact whole r (rotateToHead_rot _ h1) (by simp [← h2])
      | cons tid right =>
        have hnd := hG.isPath.nodup
        have hnd' := List.nodup_append.1 hnd
        have hnd'' := List.nodup_cons.1 hnd'.2.1
        have hidL : b.id ∉ left := fun hm => hnd'.2.2 _ hm _ (by simp) rfl
        have hidR : b.id ∉ tid :: right := hnd''.1
        have hch := hG.isPath.chain
        rw [List.isChain_append] at hch
        have hchL := h.chain_out hnd'.1 hidL hch.1
        have hchR := h.chain_out hnd''.2 hidR hch.2.1.tail
        have hmem : ∀ x ∈ left ++ tid :: right, x ≠ b.id ∧ x ∈ g.nodes ∧ x ∉ b.path := by
          intro x hx
          have hne : x ≠ b.id := by
            rintro rfl
            rcases List.mem_append.1 hx with hx | hx
            · exact hidL hx
            · exact hidR hx
          exact ⟨hne, h.out_of_ne (hG.isPath.mem x (by simp at hx ⊢; tauto)) hne⟩
        have hsm : sid ∈ left ++ tid :: right := by rw [hl0]; simp
        have htm : tid ∈ left ++ tid :: right := by simp
        have hs : ∃ t ∈ b.path, g.Adj sid t := by
          have hadj := hch.2.2 sid hgl b.id (by simp)
          obtain ⟨t, ht, ha⟩ := h.adj_id (hmem sid hsm).1 (h.lawful'.adj_symm _ _ hadj)
          exact ⟨t, ht, h.lawful.adj_symm _ _ ha⟩
        have ht : ∃ t ∈ b.path, g.Adj t tid := h.adj_id (hmem tid htm).1 (List.isChain_cons_cons.1 hch.2.1).1
        have hlr : (left ++ tid :: right).Nodup := by
          refine List.nodup_append.2 ⟨hnd'.1, hnd''.2, ?_⟩
          intro x hx y hy
          exact hnd'.2.2 x hx y (by simp only [List.mem_cons] at hy ⊢; tauto)
        have through : ∀ bp : List Nat, bp.Perm b.path → Cyclic g bp →
            ∃ l, Blossom.liftThrough fuel bp left (tid :: right) sid tid g = .ok l ∧ IsPath g l := by
          intro bp hperm hc
          rw [hl0]
          refine liftThrough_ok h.lawful (hperm.nodup_iff.2 h.flower.nodup)
            (fun x hx => h.flower.sub x (hperm.mem_iff.1 hx)) hc (by rw [hperm.length_eq]; exact hf)
            (by rw [← hl0]; exact hchL) hchR (by rw [← hl0]; exact hlr)
            (by rw [← hl0]; exact fun x hx => (hmem x hx).2.1)
            (by rw [← hl0]; exact fun x hx hb => (hmem x hx).2.2 (hperm.mem_iff.1 hb)) ?_ ?_
          · obtain ⟨t, h1, h2⟩ := hs; exact ⟨t, hperm.mem_iff.2 h1, h2⟩
          · obtain ⟨t, h1, h2⟩ := ht; exact ⟨t, hperm.mem_iff.2 h1, h2⟩
        -- the ends of an arc
        have ends : ∀ arc : List Nat, arc ≠ [] → (∀ x ∈ arc, x ∈ b.path) → IsPath g (left ++ arc ++ tid :: right) →
            ∃ c d, arc.head? = some c ∧ arc.getLast? = some d ∧ c ∈ b.path ∧ d ∈ b.path ∧ g.Adj sid c ∧ g.Adj tid d := by
          intro arc hne hsub hp
          obtain ⟨d, hd⟩ : ∃ d, arc.getLast? = some d := ⟨_, List.getLast?_eq_some_getLast hne⟩
          obtain ⟨c, hcc⟩ : ∃ c, arc.head? = some c := by
            cases arc with
            | nil => exact absurd rfl hne
            | cons c arc => exact ⟨c, rfl⟩
          have hch := hp.chain
          rw [List.isChain_append, List.isChain_append] at hch
          refine ⟨c, d, hcc, hd, hsub c (List.mem_of_head? hcc), hsub d (List.mem_of_getLast? hd),
            hch.1.2.2 sid hgl c hcc, h.lawful.adj_symm _ _ (hch.2.2 d ?_ tid rfl)⟩
          rw [List.getLast?_append, hd]; rfl
        -- the base is at one end
        have atEnd : ∀ (arc : List Nat) c d, arc.head? = some c → arc.getLast? = some d → c ∈ b.path → d ∈ b.path → g.Adj sid c →
            g.Adj tid d → arc.head? = some base ∨ arc.getLast? = some base := by
          intro arc c d h1 h2 h3 h4 h5 h6
          by_cases hB3 : 3 ≤ b.path.length
          · have hsplit : left ++ b.id :: tid :: right = left' ++ sid :: b.id :: tid :: right := by rw [hl0]; simp
            rcases hG.inner _ _ _ _ _ hsplit (fun C hC => h.id_off hA hS hc ho hB3 hC) with h7 | h7
            · left
              have h8 := h.get_of_id (hmem sid hsm).1 h7
              rw [h1, nbr_unique h.lawful hA hS h.flower.nodup hc ho (hmem sid hsm).2.2 h3 h.flower.base_mem h5
                (h.lawful.adj_symm _ _ (h.matches_.adj' h8))]
            · right
              have h8 := h.get_of_id (hmem tid htm).1 h7
              rw [h2, nbr_unique h.lawful hA hS h.flower.nodup hc ho (hmem tid htm).2.2 h4 h.flower.base_mem h6
                (h.lawful.adj_symm _ _ (h.matches_.adj' h8))]
          · left
            obtain ⟨x0, hB⟩ := List.length_eq_one_iff.1 (show b.path.length = 1 by omega)
            have e2 := h.flower.base_mem
            rw [hB] at h3 e2
            simp at h3 e2
            rw [h1, h3, e2]
        obtain ⟨q, hq1, hq2⟩ := hF.rot
        have hrev : b.path.reverse.IsRotated (base :: q.reverse) := by
          have h1 := hq1.reverse
          rw [List.reverse_cons] at h1
          have h2 := List.isRotated_append (l := q.reverse) (l' := [base])
          exact h1.trans (by simpa using h2)
        have fin : ∀ arc : List Nat, arc ≠ [] → (∀ x ∈ arc, x ∈ b.path) → IsPath g (left ++ arc ++ tid :: right) →
            arc.length % 2 = 1 → (∃ rest, (arc ++ rest).IsRotated b.path ∨ (arc ++ rest).IsRotated b.path.reverse) →
            Good g p (left ++ arc ++ tid :: right) := by
          intro arc hne hsub hp hodd hr
          obtain ⟨c, d, h1, h2, h3, h4, h5, h6⟩ := ends arc hne hsub hp
          have he := atEnd arc c d h1 h2 h3 h4 h5 h6
          obtain ⟨rest, hr⟩ := hr
          have hcl : base ∈ arc ∧ ∀ x ∈ arc, x ≠ base → ∃ y ∈ arc, p.get x = some y := by
            rcases hr with hr | hr
            · exact arc_closed h.flower.nodup hq1 hq2 hr hodd he
            · exact arc_closed (List.nodup_reverse.2 h.flower.nodup) hrev hq2.reverse hr hodd he
          exact good_of_arc h hA hS hc ho hG hp hsub hodd hcl.1 hcl.2
        obtain ⟨f1, ef1, hp1⟩ := through b.path (List.Perm.refl _) hc
        obtain ⟨a1, r1, hr1, hn1, rfl⟩ := liftThrough_form ef1 hB0
        have hs1 : ∀ x ∈ a1, x ∈ b.path := fun x hx => (IsRotated.mem hr1).1 (by simp [hx])
        have hev := hG.even
        simp only [hle, List.isEmpty_cons, Bool.false_and, Bool.not_false, Bool.and_false, Bool.false_eq_true,
          if_false, Blossom.liftLeftBlossomRight, hgl, vecIndex, List.getElem?_cons_zero, Out.ok_bind, ef1] at e
        split at e
        · rename_i hpar
          simp at e
          rw [← List.append_assoc] at e
          subst e
          refine fin a1 hn1 hs1 hp1 ?_ ⟨r1, .inl hr1⟩
          simp at hpar hev; omega
        · rename_i hpar
          obtain ⟨a2, r2, hr2, hn2, rfl⟩ := liftThrough_form e (by simpa using hB0)
          have hs2 : ∀ x ∈ a2, x ∈ b.path := fun x hx => List.mem_reverse.1 ((IsRotated.mem hr2).1 (by simp [hx]))
          refine fin a2 hn2 hs2 hl ?_ ⟨r2, .inr hr2⟩
          obtain ⟨c, d, h1, h2, h3, h4, h5, h6⟩ := ends a1 hn1 hs1 hp1
          obtain ⟨c', d', h1', h2', h3', h4', h5', h6'⟩ := ends a2 hn2 hs2 hl
          have ec := nbr_unique h.lawful hA hS h.flower.nodup hc ho (hmem sid hsm).2.2 h3 h3' h5 h5'
          have ed := nbr_unique h.lawful hA hS h.flower.nodup hc ho (hmem tid htm).2.2 h4 h4' h6 h6'
          subst ec ed
          have ha1 : a1.length % 2 = 0 := by simp at hpar hev; omega
          have hcd : c ≠ d := by
            rintro rfl
            have hnda : a1.Nodup := (List.nodup_append.1 (List.nodup_append.1 hp1.nodup).1).2.1
            cases a1 with
            | nil => exact hn1 rfl
            | cons z a1 =>
              simp at h1; subst h1
              cases a1 with
              | nil => simp at ha1
              | cons y a1 =>
                rw [List.getLast?_cons_cons] at h2
                exact (List.nodup_cons.1 hnda).1 (List.mem_of_getLast? h2)
          have := arcs_length h.flower.nodup hr1 hr2 h1 h1' h2 h2' hcd
          omega

/-- Every path the search finds, in a graph whose odd cycles are apart, is good. -/
theorem augmentingPath_good {pf : Platform} {ords : Nat → HashOrder} (ho : ∀ i, (ords i).Valid) (n : Nat) :
    ∀ {g : GraphI} {p : Pairing} {path : List Nat}, g.Lawful → g.edges.Nodup → p.Matches g → g.OddCyclesApart →
    augmentingPath pf ords n g p = .ok (some path) → Good g p path := by
  induction n with
  | zero => intro g p path _ _ _ _ e; simp [augmentingPath] at e
  | succ n ih =>
    intro g p path hg he hp hA e
    rcases augmentingPath_search (pf := pf) hg hp hp.symmetric (fun _ _ => rfl) ho ho n with ⟨h1, -⟩ | ⟨f, P, v, w, hE, h1, -⟩ | ⟨h1, -⟩
    · rw [h1] at e; simp at e
    · rw [h1] at e
      have hF := hE.forest
      have hv := hE.even_v
      have hw := hE.even_w
      have hv0 : P v ≠ [] := by intro e; rw [e] at hv; simp at hv
      unfold evenPath at e
      rw [hF.path] at e
      by_cases hn : n < (P v).length
      · rw [if_pos hn] at e; simp at e
      rw [if_neg hn, if_neg hv0, Out.ok_bind] at e
      simp only at e
      by_cases hl : (P v).getLast? = (P w).getLast?
      · have hl' : ((P v).getLast? == (P w).getLast?) = true := by simpa using hl
        rw [if_pos hl'] at e
        obtain ⟨B, base, s, hB, hFd⟩ := hF.found hg hp hv hw hE.adj hl
        rcases processBlossom_eq (pf := pf) hg he hp hp rfl (ho n) (ho n) (fuel := n) (rec := augmentingPath pf ords n)
          (rec' := augmentingPath pf ords n) hB hFd with ⟨m, e1, -⟩ | ⟨b, g', p', q', hb, hc, -, -, -, e1, -⟩
        · rw [e1] at e; simp at e
        · subst hb
          rw [e1, Out.bind_eq_ok] at e
          obtain ⟨r, h2, h3⟩ := e
          cases r with
          | none => simp at h3
          | some path' =>
            simp only at h3
            rw [Out.bind_eq_ok] at h3
            obtain ⟨l, h4, h5⟩ := h3
            simp at h5; subst h5
            have hG := ih hc.lawful' hc.edges' hc.matches' (hc.apart hA.on (fun _ _ => trivial) hFd.cyclic hFd.odd).all h2
            have hle := lift_le (g := g) (show n ≤ n + b.path.length + 1 by omega) b path'
            exact lift_good hc hFd hA.on (fun _ _ => trivial) hG (show b.path.length < n + b.path.length + 1 by omega) (hle.eq h4 (by simp))
      · have hl' : ((P v).getLast? == (P w).getLast?) = false := by simpa using hl
        rw [hl'] at e
        simp at e; subst e
        obtain ⟨a1, a2⟩ := hF.augmenting hg hp hv hw hE.adj hl
        exact .of_augmenting hp.symmetric a1 a2
    · rw [h1] at e; simp at e

theorem Good.improving {path : List Nat} (h : Good g p path) : p.Improving path :=
  ⟨h.isPath.nodup, h.even, fun x y hx e => h.closed x y hx (mate_eq_ok.1 e), by
    obtain ⟨x, hx, e⟩ := h.unpaired
    exact ⟨x, hx, hasNode_false.2 e⟩⟩

/-- A path of even length, closed under mates, with an unpaired node and at most two of them. -/
structure Fine (g : GraphI) (p : Pairing) (path : List Nat) : Prop where
  isPath : IsPath g path
  even : path.length % 2 = 0
  closed : ∀ x y, x ∈ path → p.get x = some y → y ∈ path
  unpaired : ∃ x ∈ path, p.get x = none
  few : ∃ s t, ∀ x ∈ path, p.get x = none → x = s ∨ x = t

theorem Good.fine {g : GraphI} {p : Pairing} {path : List Nat} (h : Good g p path) : Fine g p path :=
  ⟨h.isPath, h.even, h.closed, h.unpaired, h.few⟩

theorem Fine.improving {g : GraphI} {p : Pairing} {path : List Nat} (h : Fine g p path) : p.Improving path :=
  ⟨h.isPath.nodup, h.even, fun x y hx e => h.closed x y hx (mate_eq_ok.1 e), by
    obtain ⟨x, hx, e⟩ := h.unpaired
    exact ⟨x, hx, hasNode_false.2 e⟩⟩

/-- Augmenting along a fine path pairs exactly two more nodes. -/
theorem Fine.order {path : List Nat} (hs : p.Symmetric) (h : Fine g p path) {q : Pairing} (hq : p.augment path = .ok q) :
    q.order = p.order + 2 := by
  refine le_antisymm ?_ (h.improving.order hs hq)
  obtain ⟨s, t, hst⟩ := h.few
  obtain ⟨q', e, hs', -, -⟩ := augment_spec hs path h.isPath.nodup h.even
  rw [hq] at e; injection e with e; subst e
  have : (q.pairs.map Prod.fst).Subperm (s :: t :: p.pairs.map Prod.fst) := by
    refine List.Nodup.subperm (by simpa using hs'.keys_nodup) ?_
    intro x hx
    rw [keys_mem, h.improving.covers hs hq x] at hx
    simp only [List.mem_cons]
    by_cases hp : p.hasNode x = true
    · exact .inr (.inr (keys_mem.2 hp))
    · rcases hst x (hx.resolve_left hp) (hasNode_false.1 (by simpa using hp)) with h | h
      · exact .inl h
      · exact .inr (.inl h)
  have := this.length_le
  simpa [Pairing.order] using this

end Gamma
