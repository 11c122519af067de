import Verif.Proofs.Good
/-
Graphs in which two odd cycles share at most one node: every path the search finds is even.
-/
namespace Gamma
open Pairing Blossom

variable {g g' : GraphI} {b : Blossom} {p p' : Pairing} {base : Nat}

theorem GraphI.OddCyclesApart.touch (h : g.OddCyclesApart) : g.OddCyclesTouch :=
  fun C D x _ z hC hD hx hx' _ _ _ hz => h C D x z hC hD hx hx' hz

/-- A path outside an odd closed walk, with both ends next to it, is next to only one node of it. -/
theorem ear_unique (hg : g.Lawful) (hT : g.OddCyclesTouch) {B : List Nat} (hn : B.Nodup) (hc : Cyclic g B)
    (ho : B.length % 2 = 1) {l : List Nat} (hl0 : l ≠ []) (hln : l.Nodup) (hout : ∀ x ∈ l, x ∉ B) (hch : l.IsChain g.Adj) {a z c d : Nat}
    (ha : l.head? = some a) (hz : l.getLast? = some z) (hcB : c ∈ B) (hdB : d ∈ B) (h1 : g.Adj a c) (h2 : g.Adj z d) :
    c = d := by
  by_contra hne
  obtain ⟨arc, harc, hlen⟩ := exists_arc hg hn hc ho hdB hcB (fun e => hne e.symm) (l.length + 1)
  have h3 : 3 ≤ B.length := by have := two_le_of_ne hcB hdB hne; omega
  have hal : 2 ≤ arc.length := two_le_of_ne harc.head_mem harc.last_mem (fun e => hne e.symm)
  have hll : 1 ≤ l.length := List.length_pos_iff.2 hl0
  have hC : OddCycle g (l ++ arc) := by
    refine ⟨?_, by simp; omega, by simp; omega, ?_, ?_⟩
    · rw [List.nodup_append]
      exact ⟨hln, harc.nodup, fun x hx y hy e => hout x hx (e ▸ harc.sub y hy)⟩
    · rw [List.isChain_append]
      refine ⟨hch, harc.chain, ?_⟩
      intro x hx y hy
      rw [harc.head] at hy; simp at hy; subst hy
      rw [hz] at hx; simp at hx; subst hx
      exact h2
    · intro x y hx hy
      rw [List.getLast?_append, harc.last] at hy
      simp at hy; subst hy
      rw [List.head?_append, ha] at hx
      simp at hx; subst hx
      exact hg.adj_symm _ _ h1
  have haC : a ∈ l := List.mem_of_head? ha
  exact hout a haC (hT _ _ d c a hC (.of_cyclic hn ho h3 hc) (by simp [harc.head_mem]) hdB (by simp [harc.last_mem]) hcB
    (fun e => hne e.symm) (by simp [haC]))

theorem nbr_unique' (hg : g.Lawful) (hT : g.OddCyclesTouch) {B : List Nat} (hn : B.Nodup) (hc : Cyclic g B)
    (ho : B.length % 2 = 1) {x c d : Nat} (hx : x ∉ B) (hcB : c ∈ B) (hdB : d ∈ B) (h1 : g.Adj x c) (h2 : g.Adj x d) :
    c = d :=
  ear_unique hg hT hn hc ho (l := [x]) (by simp) (by simp) (by simpa using hx) (.singleton _) rfl rfl hcB hdB h1 h2

/-- An odd cycle of the contracted graph that goes through the contracted blossom touches the blossom at one node. -/
theorem Blossom.Con.touch_id (h : Con g p b base g' p') (hT : g.OddCyclesTouch) (hc : Cyclic g b.path) (ho : b.path.length % 2 = 1)
    {C : List Nat} (hC : OddCycle g' C) (hid : b.id ∈ C) :
    ∃ l e, e ∈ b.path ∧ (∀ x, x ∈ C ↔ x = b.id ∨ x ∈ l) ∧ (∀ x ∈ l, x ≠ b.id ∧ x ∉ b.path) ∧ l.Nodup ∧ l.IsChain g.Adj ∧ l ≠ [] ∧
      (∀ a, l.head? = some a → g.Adj a e) ∧ (∀ z, l.getLast? = some z → g.Adj z e) ∧ OddCycle g (l ++ [e]) := by
  obtain ⟨l, hl⟩ := rot_to hid
  have hC' := hC.rot hl.symm
  obtain ⟨hn, hout, hch, hev, h2, hh, hz⟩ := h.through_id hC'
  have hl0 : l ≠ [] := by intro e; rw [e] at h2; simp at h2
  obtain ⟨a, ha⟩ : ∃ a, l.head? = some a := by
    cases l with
    | nil => exact absurd rfl hl0
    | cons a l => exact ⟨a, rfl⟩
  obtain ⟨z, hzz⟩ : ∃ z, l.getLast? = some z := ⟨_, List.getLast?_eq_some_getLast hl0⟩
  obtain ⟨e, he, hea⟩ := hh a ha
  obtain ⟨d, hd, hzd⟩ := hz z hzz
  have := ear_unique h.lawful hT h.flower.nodup hc ho hl0 hn (fun x hx => (hout x hx).2) hch ha hzz he hd
    (h.lawful.adj_symm _ _ hea) hzd
  subst this
  refine ⟨l, e, he, fun x => ?_, fun x hx => ⟨?_, (hout x hx).2⟩, hn, hch, hl0, ?_, ?_, ?_⟩
  · rw [IsRotated.mem hl, List.mem_cons]
  · exact fun e => (List.nodup_cons.1 hC'.nodup).1 (e ▸ hx)
  · intro x hx; rw [ha] at hx; simp at hx; subst hx; exact h.lawful.adj_symm _ _ hea
  · intro x hx; rw [hzz] at hx; simp at hx; subst hx; exact hzd
  · exact cycle_of_arc (B := b.path) (d := e) (e := e) hn (fun x hx => (hout x hx).2) hch hev h2
      ⟨by simpa using he, by simp, .singleton _, rfl, rfl⟩ rfl
      (fun x hx => by rw [ha] at hx; simp at hx; subst hx; exact hea)
      (fun x hx => by rw [hzz] at hx; simp at hx; subst hx; exact hzd)

theorem Blossom.Con.off_id (h : Con g p b base g' p') {C : List Nat} (hC : OddCycle g' C) (hid : b.id ∉ C) :
    OddCycle g C ∧ ∀ x ∈ C, x ∉ b.path := by
  obtain ⟨D, hD, -⟩ := h.lift_cycle hC (.inr hid)
  have hne : ∀ y ∈ C, y ≠ b.id := fun y hy e => hid (e ▸ hy)
  refine ⟨⟨hC.nodup, hC.odd, hC.long, h.chain_out hC.nodup hid hC.chain, ?_⟩, fun x hx =>
    (h.out_of_ne (hC.mem_nodes h.lawful' hx) (hne x hx)).2⟩
  intro a z ha hz
  refine h.adj_out ?_ (hne z (List.mem_of_getLast? hz)) (hne a (List.mem_of_head? ha)) (hC.closes a z ha hz)
  rintro rfl
  have hl := hC.long
  cases C with
  | nil => simp at hl
  | cons y C =>
    simp at ha; subst ha
    cases C with
    | nil => simp at hl
    | cons w C =>
      rw [List.getLast?_cons_cons] at hz
      exact (List.nodup_cons.1 hC.nodup).1 (List.mem_of_getLast? hz)

theorem first_common {l m : List Nat} (h : ∃ w ∈ l, w ∈ m) : ∃ a w r, l = a ++ w :: r ∧ w ∈ m ∧ ∀ x ∈ a, x ∉ m := by
  induction l with
  | nil => simp at h
  | cons y l ih =>
    by_cases hy : y ∈ m
    · exact ⟨[], y, l, rfl, hy, by simp⟩
    · obtain ⟨w, hw, hwm⟩ := h
      have hw' : w ∈ l := by
        rcases List.mem_cons.1 hw with rfl | h
        · exact absurd hwm hy
        · exact h
      obtain ⟨a, w', r, e, h1, h2⟩ := ih ⟨w, hw', hwm⟩
      refine ⟨y :: a, w', r, by simp [e], h1, ?_⟩
      intro x hx
      rcases List.mem_cons.1 hx with rfl | hx
      · exact hy
      · exact h2 x hx

/-- Contracting a blossom keeps odd cycles from sharing more than a node. -/
theorem Blossom.Con.touch (h : Con g p b base g' p') (hT : g.OddCyclesTouch) (hc : Cyclic g b.path) (ho : b.path.length % 2 = 1) :
    g'.OddCyclesTouch := by
  intro C D x y z hC hD hxC hxD hyC hyD hxy hzC
  by_cases hiC : b.id ∈ C
  · obtain ⟨l, e, he, mC, oC, nC, cC, lC, aC, zC, hC'⟩ := h.touch_id hT hc ho hC hiC
    by_cases hiD : b.id ∈ D
    · obtain ⟨m, f, hf, mD, oD, nD, cD, lD, aD, zD, hD'⟩ := h.touch_id hT hc ho hD hiD
      have hw : ∃ w ∈ l, w ∈ m := by
        rcases (mC x).1 hxC with rfl | h1
        · have h1 := ((mC y).1 hyC).resolve_left (fun e => hxy e.symm)
          have h2 := ((mD y).1 hyD).resolve_left (fun e => hxy e.symm)
          exact ⟨y, h1, h2⟩
        · exact ⟨x, h1, ((mD x).1 hxD).resolve_left (oC x h1).1⟩
      have hef : e = f := by
        obtain ⟨a, w, r, rfl, hwm, hdis⟩ := first_common hw
        obtain ⟨m1, m2, rfl⟩ := List.append_of_mem hwm
        have hn1 := List.nodup_append.1 nC
        have hn2 := List.nodup_append.1 nD
        refine ear_unique h.lawful hT h.flower.nodup hc ho (l := a ++ w :: m2) (a := (a ++ [w]).head (by simp))
          (z := (w :: m2).getLast (by simp)) (by simp) ?_ ?_ ?_ ?_ ?_ he hf ?_ ?_
        · rw [List.nodup_append]
          refine ⟨hn1.1, hn2.2.1, ?_⟩
          rintro x hx y hy rfl
          exact hdis x hx (by simp at hy ⊢; tauto)
        · intro x hx
          rcases List.mem_append.1 hx with hx | hx
          · exact (oC x (by simp [hx])).2
          · exact (oD x (by simp at hx ⊢; tauto)).2
        · rw [List.isChain_append] at cC cD ⊢
          refine ⟨cC.1, cD.2.1, fun x hx y hy => cC.2.2 x hx y ?_⟩
          simpa using hy
        · cases a <;> simp
        · rw [List.getLast?_append, List.getLast?_eq_some_getLast (by simp : w :: m2 ≠ [])]; rfl
        · refine aC _ ?_
          cases a <;> simp
        · refine zD _ ?_
          rw [List.getLast?_append, List.getLast?_eq_some_getLast (by simp : w :: m2 ≠ [])]; rfl
      subst hef
      obtain ⟨w, hwl, hwm⟩ := hw
      rcases (mC z).1 hzC with rfl | hz
      · exact hiD
      · have := hT _ _ e w z hC' hD' (by simp) (by simp) (by simp [hwl]) (by simp [hwm])
          (fun e' => (oC w hwl).2 (e' ▸ he)) (by simp [hz])
        rcases List.mem_append.1 this with h1 | h1
        · exact (mD z).2 (.inr h1)
        · simp at h1; subst h1; exact absurd he (oC _ hz).2
    · obtain ⟨hD', oD⟩ := h.off_id hD hiD
      have hx' : x ∈ l := ((mC x).1 hxC).resolve_left (fun e => hiD (e ▸ hxD))
      have hy' : y ∈ l := ((mC y).1 hyC).resolve_left (fun e => hiD (e ▸ hyD))
      exact absurd he (oD e (hT _ _ x y e hC' hD' (by simp [hx']) hxD (by simp [hy']) hyD hxy (by simp)))
  · obtain ⟨hC', oC⟩ := h.off_id hC hiC
    by_cases hiD : b.id ∈ D
    · obtain ⟨m, f, hf, mD, oD, nD, cD, lD, aD, zD, hD'⟩ := h.touch_id hT hc ho hD hiD
      have hx' : x ∈ m := ((mD x).1 hxD).resolve_left (fun e => hiC (e ▸ hxC))
      have hy' : y ∈ m := ((mD y).1 hyD).resolve_left (fun e => hiC (e ▸ hyC))
      have := hT _ _ x y z hC' hD' hxC (by simp [hx']) hyC (by simp [hy']) hxy hzC
      rcases List.mem_append.1 this with h1 | h1
      · exact (mD z).2 (.inr h1)
      · simp at h1; subst h1; exact absurd hf (oC _ hzC)
    · exact hT _ _ x y z hC' (h.off_id hD hiD).1 hxC hxD hyC hyD hxy hzC

/-! ### `lift` -/

/-- `lift` keeps paths even. -/
theorem lift_even (h : Con g p b base g' p') (hT : g.OddCyclesTouch) (hc : Cyclic g b.path) (ho : b.path.length % 2 = 1)
    {path l : List Nat} (hP : IsPath g' path) (hev : path.length % 2 = 0) {fuel : Nat} (hf : b.path.length < fuel)
    (e : b.lift fuel path g = .ok l) : IsPath g l ∧ l.length % 2 = 0 := by
  have hB0 : b.path ≠ [] := List.ne_nil_of_mem h.flower.base_mem
  have hl : IsPath g l := by
    obtain ⟨l', e', hl⟩ := lift_ok h hc hP hf
    rw [e] at e'; injection e' with e'; subst e'; exact hl
  refine ⟨hl, ?_⟩
  unfold Blossom.lift at e
  cases hi : path.findIdx? (fun pid => pid == b.id) with
  | none =>
    rw [hi] at e
    simp at e; subst e
    exact hev
  | some index =>
    rw [hi] at e
    rw [List.findIdx?_eq_some_iff_getElem] at hi
    obtain ⟨hlt, hget, -⟩ := hi
    simp only [beq_iff_eq] at hget
    have hsplit : path = path.take index ++ b.id :: path.drop (index + 1) := by
      conv_lhs => rw [← List.take_append_drop index path, List.drop_eq_getElem_cons hlt, hget]
    simp only at e
    generalize hL : path.take index = left at hsplit e
    generalize hR : path.drop (index + 1) = right at hsplit e
    subst hsplit
    clear hL hR hget hlt
    -- the whole blossom
    have whole : ∀ r : List Nat, r.IsRotated b.path → l = left ++ r ++ right → l.length % 2 = 0 := by
      rintro r hr rfl
      have := hr.perm.length_eq
      simp at hev ⊢; omega
    rcases List.eq_nil_or_concat left with hl0 | ⟨left', sid, hl0⟩
    · subst hl0
      cases right with
      | nil => simp at hev
      | cons tid right =>
        simp [Blossom.liftBlossomRight, vecIndex] at e
        rw [Out.bind_eq_ok] at e
        obtain ⟨r, h1, h2⟩ := e
        simp at h2
        exact whole r (rotateToLast_rot _ h1) (by simp [← h2])
    · rw [List.concat_eq_append] at hl0
      have hgl : left.getLast? = some sid := by rw [hl0, List.getLast?_concat]
      have hle : left.isEmpty = false := by rw [hl0]; simp
      cases right with
      | nil =>
        simp [hle, Blossom.liftLeftBlossom, hgl] at e
        rw [Out.bind_eq_ok] at e
        obtain ⟨r, h1, h2⟩ := e
        simp at h2
        exact whole r (rotateToHead_rot _ h1) (by simp [← h2])
      | cons tid right =>
        have hnd := hP.nodup
        have hnd' := List.nodup_append.1 hnd
        have hnd'' := List.nodup_cons.1 hnd'.2.1
        have hidL : b.id ∉ left := fun hm => hnd'.2.2 _ hm _ (by simp) rfl
        have hidR : b.id ∉ tid :: right := hnd''.1
        have hch := hP.chain
        rw [List.isChain_append] at hch
        have hchL := h.chain_out hnd'.1 hidL hch.1
        have hchR := h.chain_out hnd''.2 hidR hch.2.1.tail
        have hmem : ∀ x ∈ left ++ tid :: right, x ≠ b.id ∧ x ∈ g.nodes ∧ x ∉ b.path := by
          intro x hx
          have hne : x ≠ b.id := by
            rintro rfl
            rcases List.mem_append.1 hx with hx | hx
            · exact hidL hx
            · exact hidR hx
          exact ⟨hne, h.out_of_ne (hP.mem x (by simp at hx ⊢; tauto)) hne⟩
        have hsm : sid ∈ left ++ tid :: right := by rw [hl0]; simp
        have htm : tid ∈ left ++ tid :: right := by simp
        have hs : ∃ t ∈ b.path, g.Adj sid t := by
          have hadj := hch.2.2 sid hgl b.id (by simp)
          obtain ⟨t, ht, ha⟩ := h.adj_id (hmem sid hsm).1 (h.lawful'.adj_symm _ _ hadj)
          exact ⟨t, ht, h.lawful.adj_symm _ _ ha⟩
        have ht : ∃ t ∈ b.path, g.Adj t tid := h.adj_id (hmem tid htm).1 (List.isChain_cons_cons.1 hch.2.1).1
        have hlr : (left ++ tid :: right).Nodup := by
          refine List.nodup_append.2 ⟨hnd'.1, hnd''.2, ?_⟩
          intro x hx y hy
          exact hnd'.2.2 x hx y (by simp only [List.mem_cons] at hy ⊢; tauto)
        have through : ∀ bp : List Nat, bp.Perm b.path → Cyclic g bp →
            ∃ l, Blossom.liftThrough fuel bp left (tid :: right) sid tid g = .ok l ∧ IsPath g l := by
          intro bp hperm hc
          rw [hl0]
          refine liftThrough_ok h.lawful (hperm.nodup_iff.2 h.flower.nodup)
            (fun x hx => h.flower.sub x (hperm.mem_iff.1 hx)) hc (by rw [hperm.length_eq]; exact hf)
            (by rw [← hl0]; exact hchL) hchR (by rw [← hl0]; exact hlr)
            (by rw [← hl0]; exact fun x hx => (hmem x hx).2.1)
            (by rw [← hl0]; exact fun x hx hb => (hmem x hx).2.2 (hperm.mem_iff.1 hb)) ?_ ?_
          · obtain ⟨t, h1, h2⟩ := hs; exact ⟨t, hperm.mem_iff.2 h1, h2⟩
          · obtain ⟨t, h1, h2⟩ := ht; exact ⟨t, hperm.mem_iff.2 h1, h2⟩
        -- the ends of an arc
        have ends : ∀ arc : List Nat, arc ≠ [] → (∀ x ∈ arc, x ∈ b.path) → IsPath g (left ++ arc ++ tid :: right) →
            ∃ c d, arc.head? = some c ∧ arc.getLast? = some d ∧ c ∈ b.path ∧ d ∈ b.path ∧ g.Adj sid c ∧ g.Adj tid d := by
          intro arc hne hsub hp
          obtain ⟨d, hd⟩ : ∃ d, arc.getLast? = some d := ⟨_, List.getLast?_eq_some_getLast hne⟩
          obtain ⟨c, hcc⟩ : ∃ c, arc.head? = some c := by
            cases arc with
            | nil => exact absurd rfl hne
            | cons c arc => exact ⟨c, rfl⟩
          have hch := hp.chain
          rw [List.isChain_append, List.isChain_append] at hch
          refine ⟨c, d, hcc, hd, hsub c (List.mem_of_head? hcc), hsub d (List.mem_of_getLast? hd),
            hch.1.2.2 sid hgl c hcc, h.lawful.adj_symm _ _ (hch.2.2 d ?_ tid rfl)⟩
          rw [List.getLast?_append, hd]; rfl
        obtain ⟨f1, ef1, hp1⟩ := through b.path (List.Perm.refl _) hc
        obtain ⟨a1, r1, hr1, hn1, rfl⟩ := liftThrough_form ef1 hB0
        have hs1 : ∀ x ∈ a1, x ∈ b.path := fun x hx => (IsRotated.mem hr1).1 (by simp [hx])
        simp only [hle, List.isEmpty_cons, Bool.false_and, Bool.not_false, Bool.and_false, Bool.false_eq_true,
          if_false, Blossom.liftLeftBlossomRight, hgl, vecIndex, List.getElem?_cons_zero, Out.ok_bind, ef1] at e
        split at e
        · rename_i hpar
          simp at e
          rw [← List.append_assoc] at e
          subst e
          simpa using hpar
        · rename_i hpar
          obtain ⟨a2, r2, hr2, hn2, rfl⟩ := liftThrough_form e (by simpa using hB0)
          have hs2 : ∀ x ∈ a2, x ∈ b.path := fun x hx => List.mem_reverse.1 ((IsRotated.mem hr2).1 (by simp [hx]))
          obtain ⟨c, d, h1, h2, h3, h4, h5, h6⟩ := ends a1 hn1 hs1 hp1
          obtain ⟨c', d', h1', h2', h3', h4', h5', h6'⟩ := ends a2 hn2 hs2 hl
          have ec := nbr_unique' h.lawful hT h.flower.nodup hc ho (hmem sid hsm).2.2 h3 h3' h5 h5'
          have ed := nbr_unique' h.lawful hT h.flower.nodup hc ho (hmem tid htm).2.2 h4 h4' h6 h6'
          subst ec ed
          have ha1 : a1.length % 2 = 0 := by simp at hpar hev; omega
          have hcd : c ≠ d := by
            rintro rfl
            have hnda : a1.Nodup := (List.nodup_append.1 (List.nodup_append.1 hp1.nodup).1).2.1
            cases a1 with
            | nil => exact hn1 rfl
            | cons z a1 =>
              simp at h1; subst h1
              cases a1 with
              | nil => simp at ha1
              | cons y a1 =>
                rw [List.getLast?_cons_cons] at h2
                exact (List.nodup_cons.1 hnda).1 (List.mem_of_getLast? h2)
          have := arcs_length h.flower.nodup hr1 hr2 h1 h1' h2 h2' hcd
          simp at hev ⊢
          omega

/-- Every path the search finds, in a graph whose odd cycles share at most one node, is even. -/
theorem augmentingPath_touch {pf : Platform} {ords : Nat → HashOrder} (ho : ∀ i, (ords i).Valid) (n : Nat) :
    ∀ {g : GraphI} {p : Pairing} {path : List Nat}, g.Lawful → g.edges.Nodup → p.Matches g → g.OddCyclesTouch →
    augmentingPath pf ords n g p = .ok (some path) → IsPath g path ∧ path.length % 2 = 0 := by
  induction n with
  | zero => intro g p path _ _ _ _ e; simp [augmentingPath] at e
  | succ n ih =>
    intro g p path hg he hp hT e
    rcases augmentingPath_search (pf := pf) hg hp hp.symmetric (fun _ _ => rfl) ho ho n with ⟨h1, -⟩ | ⟨f, P, v, w, hE, h1, -⟩ | ⟨h1, -⟩
    · rw [h1] at e; simp at e
    · rw [h1] at e
      have hF := hE.forest
      have hv := hE.even_v
      have hw := hE.even_w
      have hv0 : P v ≠ [] := by intro e; rw [e] at hv; simp at hv
      unfold evenPath at e
      rw [hF.path] at e
      by_cases hn : n < (P v).length
      · rw [if_pos hn] at e; simp at e
      rw [if_neg hn, if_neg hv0, Out.ok_bind] at e
      simp only at e
      by_cases hl : (P v).getLast? = (P w).getLast?
      · have hl' : ((P v).getLast? == (P w).getLast?) = true := by simpa using hl
        rw [if_pos hl'] at e
        obtain ⟨B, base, s, hB, hFd⟩ := hF.found hg hp hv hw hE.adj hl
        rcases processBlossom_eq (pf := pf) hg he hp hp rfl (ho n) (ho n) (fuel := n) (rec := augmentingPath pf ords n)
          (rec' := augmentingPath pf ords n) hB hFd with ⟨m, e1, -⟩ | ⟨b, g', p', q', hb, hc, -, -, -, e1, -⟩
        · rw [e1] at e; simp at e
        · subst hb
          rw [e1, Out.bind_eq_ok] at e
          obtain ⟨r, h2, h3⟩ := e
          cases r with
          | none => simp at h3
          | some path' =>
            simp only at h3
            rw [Out.bind_eq_ok] at h3
            obtain ⟨l, h4, h5⟩ := h3
            simp at h5; subst h5
            have hG := ih hc.lawful' hc.edges' hc.matches' (hc.touch hT hFd.cyclic hFd.odd) h2
            have hle := lift_le (g := g) (show n ≤ n + b.path.length + 1 by omega) b path'
            exact lift_even hc hT hFd.cyclic hFd.odd hG.1 hG.2 (show b.path.length < n + b.path.length + 1 by omega) (hle.eq h4 (by simp))
      · have hl' : ((P v).getLast? == (P w).getLast?) = false := by simpa using hl
        rw [hl'] at e
        simp at e; subst e
        obtain ⟨a1, a2⟩ := hF.augmenting hg hp hv hw hE.adj hl
        exact ⟨a2, a1.even⟩
    · rw [h1] at e; simp at e


end Gamma
