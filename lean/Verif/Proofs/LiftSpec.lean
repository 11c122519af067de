import Verif.Proofs.Good
/-
What `Blossom::lift` returns, in terms of the graph and the path alone (no matching).
-/
namespace Gamma
namespace Blossom

/-- `g'` is `g` with the nodes of `b.path` replaced by the single node `b.id`. -/
structure Shrunk (g : GraphI) (b : Blossom) (g' : GraphI) : Prop where
  lawful : g.Lawful
  free : FreeId g b
  nodup : b.path.Nodup
  sub : ∀ x ∈ b.path, x ∈ g.nodes
  lawful' : g'.Lawful
  nodes' : g'.nodes = b.id :: g.nodes.filter (fun x => !b.path.contains x)
  adj' : ∀ x y, x ≠ y → (g'.Adj x y ↔ ∃ a c, g.Adj a c ∧ kap b a = x ∧ kap b c = y)

variable {g g' : GraphI} {b : Blossom}

namespace Shrunk

theorem mem_nodes (h : Shrunk g b g') {x : Nat} :
    x ∈ g'.nodes ↔ x = b.id ∨ (x ∈ g.nodes ∧ x ∉ b.path) := by
  rw [h.nodes']; simp

theorem out_of_ne (h : Shrunk g b g') {x : Nat} (hx : x ∈ g'.nodes) (hne : x ≠ b.id) :
    x ∈ g.nodes ∧ x ∉ b.path := by
  rcases h.mem_nodes.1 hx with h1 | h1
  · exact absurd h1 hne
  · exact h1

theorem preimage {x a : Nat} (hne : x ≠ b.id) (e : kap b a = x) : a = x := by
  by_cases ha : a ∈ b.path
  · rw [kap_in ha] at e; exact absurd e.symm hne
  · rwa [kap_out ha] at e

theorem adj_out (h : Shrunk g b g') {x y : Nat} (hxy : x ≠ y) (hx : x ≠ b.id) (hy : y ≠ b.id)
    (ha : g'.Adj x y) : g.Adj x y := by
  obtain ⟨a, c, hac, e1, e2⟩ := (h.adj' x y hxy).1 ha
  rw [preimage hx e1, preimage hy e2] at hac; exact hac

theorem adj_id (h : Shrunk g b g') {y : Nat} (hy : y ≠ b.id)
    (ha : g'.Adj b.id y) : ∃ a ∈ b.path, g.Adj a y := by
  obtain ⟨a, c, hac, e1, e2⟩ := (h.adj' _ y hy.symm).1 ha
  rw [preimage hy e2] at hac
  exact ⟨a, (h.free.kap_eq_id (h.lawful.adj_src hac)).1 e1, hac⟩

theorem chain_out (h : Shrunk g b g') {l : List Nat} (hn : l.Nodup) (hid : b.id ∉ l)
    (hc : l.IsChain g'.Adj) : l.IsChain g.Adj := by
  induction l with
  | nil => exact .nil
  | cons x l ih =>
    cases l with
    | nil => exact .singleton _
    | cons y l =>
      rw [List.isChain_cons_cons] at hc ⊢
      rw [List.nodup_cons] at hn
      have hx : x ≠ b.id := fun e => hid (by simp [e])
      have hy : y ≠ b.id := fun e => hid (by simp [e])
      refine ⟨h.adj_out (fun e => hn.1 (by simp [e])) hx hy hc.1, ih hn.2 (fun hm => hid (by simp [hm])) hc.2⟩

end Shrunk

theorem rotateToLast_rot {g : GraphI} {tid : Nat} (fuel : Nat) : ∀ {B r : List Nat},
    Blossom.rotateToLast g tid fuel B = .ok r → r.IsRotated B := by
  induction fuel with
  | zero => intro B r h; simp [Blossom.rotateToLast] at h
  | succ n ih =>
    intro B r h
    rw [Blossom.rotateToLast] at h
    split at h
    · cases h
    · rw [Out.bind_eq_ok] at h
      obtain ⟨x, -, h⟩ := h
      split at h
      · exact (ih h).trans (rotateRight1_rot _)
      · simp at h; subst h; exact List.IsRotated.refl _

/-- One way round, in detail. -/
theorem liftThrough_arc (hg : g.Lawful) {bp left right : List Nat} {sid tid fuel : Nat}
    (hm : ∀ x ∈ bp, x ∈ g.nodes) (hc : Cyclic g bp) (hf : bp.length < fuel)
    (hsid : sid ∈ g.nodes) (htid : tid ∈ g.nodes) (hs : ∃ t ∈ bp, g.Adj sid t) (ht : ∃ t ∈ bp, g.Adj t tid) :
    ∃ c l1 c1 r1, liftThrough fuel bp left right sid tid g = .ok (left ++ (l1 ++ [c1]) ++ right) ∧
      (l1 ++ c1 :: r1).IsRotated bp ∧ (l1 ++ [c1]).head? = some c ∧ g.Adj sid c ∧ g.Adj c1 tid := by
  obtain ⟨c, l, e1, e2, e3, e4⟩ := rotateToHead_ok hg hsid bp [] fuel (by simpa using hm) (by simpa using hc) hf (.inl hs)
  simp only [List.nil_append] at e1 e2
  have hm' : ∀ x ∈ c :: l, x ∈ g.nodes := fun x hx => hm x (e2.mem_iff.1 hx)
  obtain ⟨t, htb, hta⟩ := ht
  obtain ⟨l1, c1, r1, f1, f2, f3⟩ := pushUntil_ok hg htid (c :: l) left hm' ⟨t, e2.mem_iff.2 htb, hta⟩
  refine ⟨c, l1, c1, r1, ?_, ?_, ?_, e4, f3⟩
  · unfold liftThrough
    rw [e1, Out.ok_bind, f2, Out.ok_bind]
  · rw [← f1]; exact rotateToHead_rot _ e1
  · cases l1 with
    | nil => simp at f1; simp [f1.1]
    | cons y l1 => simp at f1; simp [f1.1]

/-- Joining a part of the cycle with two paths outside. -/
theorem isPath_join (hg : g.Lawful) {B left mid right : List Nat} (hB : ∀ x ∈ B, x ∈ g.nodes) (hmid : ∀ x ∈ mid, x ∈ B)
    (hne : mid ≠ []) (hnd : mid.Nodup) (hch : mid.IsChain g.Adj)
    (hl : left.IsChain g.Adj) (hr : right.IsChain g.Adj) (hlr : (left ++ right).Nodup)
    (hout : ∀ x ∈ left ++ right, x ∈ g.nodes ∧ x ∉ B)
    (h1 : ∀ x, left.getLast? = some x → ∀ y, mid.head? = some y → g.Adj x y)
    (h2 : ∀ x, mid.getLast? = some x → ∀ y, right.head? = some y → g.Adj x y) : IsPath g (left ++ mid ++ right) := by
  have hlr' := List.nodup_append.1 hlr
  refine ⟨by simp [hne], ?_, ?_, ?_⟩
  · rw [List.append_assoc]
    refine List.nodup_append.2 ⟨hlr'.1, ?_, ?_⟩
    · refine List.nodup_append.2 ⟨hnd, hlr'.2.1, ?_⟩
      intro x hx y hy e
      exact (hout y (List.mem_append_right _ hy)).2 (e ▸ hmid x hx)
    · intro x hx y hy e
      rcases List.mem_append.1 hy with hy | hy
      · exact (hout x (List.mem_append_left _ hx)).2 (e ▸ hmid y hy)
      · exact hlr'.2.2 x hx y hy e
  · rw [List.isChain_append, List.isChain_append]
    refine ⟨⟨hl, hch, fun x hx y hy => h1 x hx y hy⟩, hr, ?_⟩
    intro x hx y hy
    rw [List.getLast?_append_of_ne_nil _ hne] at hx
    exact h2 x hx y hy
  · intro x hx
    rcases List.mem_append.1 hx with hx | hx
    · rcases List.mem_append.1 hx with hx | hx
      · exact (hout x (List.mem_append_left _ hx)).1
      · exact hB x (hmid x hx)
    · exact (hout x (List.mem_append_right _ hx)).1

/-- Everything about a lift through `b.id`. -/
theorem lift_spec (h : Shrunk g b g') (hcyc : Cyclic g b.path) (hne : b.path ≠ []) {left right : List Nat}
    (hp : IsPath g' (left ++ b.id :: right)) {fuel : Nat} (hf : b.path.length < fuel) :
    ∃ mid, b.lift fuel (left ++ b.id :: right) g = .ok (left ++ mid ++ right) ∧ IsPath g (left ++ mid ++ right) ∧
      mid ≠ [] ∧ (∀ x ∈ mid, x ∈ b.path) ∧ (left = [] ∨ right = [] → mid.IsRotated b.path) ∧
      (∀ c d, (∀ sid, left.getLast? = some sid → ∀ t ∈ b.path, g.Adj sid t → t = c) →
        (∀ tid, right.head? = some tid → ∀ t ∈ b.path, g.Adj t tid → t = d) →
        b.path.length % 2 = 1 → (left ++ b.id :: right).length % 2 = 0 → (left ++ mid ++ right).length % 2 = 0) := by
  have hnd := hp.nodup
  have hnd' := List.nodup_append.1 hnd
  have hnd'' := List.nodup_cons.1 hnd'.2.1
  have hidL : b.id ∉ left := fun hm => hnd'.2.2 _ hm _ (by simp) rfl
  have hidR : b.id ∉ right := hnd''.1
  have hch := hp.chain
  rw [List.isChain_append] at hch
  have hchL := h.chain_out hnd'.1 hidL hch.1
  have hchR := h.chain_out hnd''.2 hidR hch.2.1.tail
  have hlr : (left ++ right).Nodup := by
    refine List.nodup_append.2 ⟨hnd'.1, hnd''.2, ?_⟩
    intro x hx y hy
    exact hnd'.2.2 x hx y (by simp [hy])
  have hout : ∀ x ∈ left ++ right, x ∈ g.nodes ∧ x ∉ b.path := by
    intro x hx
    rcases List.mem_append.1 hx with hx | hx
    · exact h.out_of_ne (hp.mem x (by simp [hx])) (fun e => hidL (e ▸ hx))
    · exact h.out_of_ne (hp.mem x (by simp [hx])) (fun e => hidR (e ▸ hx))
  have hlast : ∀ sid, left.getLast? = some sid → ∃ t ∈ b.path, g.Adj sid t := by
    intro sid hs
    have hsl : sid ∈ left := List.mem_of_getLast? hs
    have hne : sid ≠ b.id := fun e => hidL (e ▸ hsl)
    have hadj := hch.2.2 sid hs b.id (by simp)
    obtain ⟨t, ht, ha⟩ := h.adj_id hne (h.lawful'.adj_symm _ _ hadj)
    exact ⟨t, ht, h.lawful.adj_symm _ _ ha⟩
  have hfirst : ∀ tid, right.head? = some tid → ∃ t ∈ b.path, g.Adj t tid := by
    intro tid ht
    cases right with
    | nil => simp at ht
    | cons y right =>
      simp at ht; subst ht
      exact h.adj_id (fun e => hidR (by simp [e])) (List.isChain_cons_cons.1 hch.2.1).1
  have hidx : (left ++ b.id :: right).findIdx? (fun pid => pid == b.id) = some left.length := by
    rw [List.findIdx?_eq_some_iff_getElem]
    refine ⟨by simp, by simp, ?_⟩
    intro j hj
    rw [List.getElem_append_left hj]
    simp only [beq_iff_eq]
    intro e; exact hidL (e ▸ List.getElem_mem hj)
  have htake : (left ++ b.id :: right).take left.length = left := by simp
  have hdrop : (left ++ b.id :: right).drop (left.length + 1) = right := by
    rw [← List.drop_drop, List.drop_left]; rfl
  unfold lift
  rw [hidx]
  simp only [htake, hdrop]
  have whole : ∀ mid : List Nat, mid.IsRotated b.path →
      (∀ x, left.getLast? = some x → ∀ y, mid.head? = some y → g.Adj x y) →
      (∀ x, mid.getLast? = some x → ∀ y, right.head? = some y → g.Adj x y) →
      IsPath g (left ++ mid ++ right) ∧
      mid ≠ [] ∧ (∀ x ∈ mid, x ∈ b.path) ∧ (left = [] ∨ right = [] → mid.IsRotated b.path) ∧
      (∀ c d, (∀ sid, left.getLast? = some sid → ∀ t ∈ b.path, g.Adj sid t → t = c) →
        (∀ tid, right.head? = some tid → ∀ t ∈ b.path, g.Adj t tid → t = d) →
        b.path.length % 2 = 1 → (left ++ b.id :: right).length % 2 = 0 → (left ++ mid ++ right).length % 2 = 0) := by
    intro mid hrot h1 h2
    have hmem : ∀ x ∈ mid, x ∈ b.path := fun x hx => hrot.perm.mem_iff.1 hx
    have hmne : mid ≠ [] := fun e => hne (by rw [e] at hrot; exact List.isRotated_nil_iff.1 hrot.symm)
    refine ⟨isPath_join h.lawful h.sub hmem hmne (hrot.perm.nodup_iff.2 h.nodup) (hcyc.rot hrot).chain hchL hchR hlr hout h1 h2,
      hmne, hmem, fun _ => hrot, ?_⟩
    intro c d _ _ ho he
    have := hrot.perm.length_eq
    simp only [List.length_append, List.length_cons] at he ⊢
    omega
  rcases List.eq_nil_or_concat left with hl | ⟨left', sid, hl⟩
  · cases hr : right with
    | nil =>
      refine ⟨b.path, by simp [hl], ?_⟩
      have := whole b.path (List.IsRotated.refl _) (by simp [hl]) (by simp [hr])
      rw [hr] at this; exact this
    | cons tid right' =>
      have htid : tid ∈ g.nodes := (hout tid (by simp [hr])).1
      obtain ⟨l, c, e1, e2, e3, e4⟩ := rotateToLast_ok h.lawful htid b.path [] fuel
        (by simpa using h.sub) (by simpa using hcyc) (by omega) (hfirst tid (by rw [hr]; rfl))
      simp only [List.nil_append] at e1 e2
      refine ⟨l ++ [c], by simp [hl, liftBlossomRight, vecIndex, e1], ?_⟩
      have := whole (l ++ [c]) (rotateToLast_rot _ e1) (by simp [hl]) (by
        intro x hx y hy
        rw [List.getLast?_concat] at hx
        rw [hr] at hy
        simp at hx hy; subst hx hy; exact e4)
      rw [hr] at this; exact this
  · rw [List.concat_eq_append] at hl
    have hgl : left.getLast? = some sid := by rw [hl, List.getLast?_concat]
    have hle : left.isEmpty = false := by rw [hl]; simp
    have hsid : sid ∈ g.nodes := (hout sid (List.mem_append_left _ (List.mem_of_getLast? hgl))).1
    cases hr : right with
    | nil =>
      obtain ⟨c, l, e1, e2, e3, e4⟩ := rotateToHead_ok h.lawful hsid b.path [] fuel
        (by simpa using h.sub) (by simpa using hcyc) hf (.inl (hlast sid hgl))
      simp only [List.nil_append] at e1 e2
      refine ⟨c :: l, by simp [hle, liftLeftBlossom, hgl, e1], ?_⟩
      have := whole (c :: l) (rotateToHead_rot _ e1) (by
        intro x hx y hy
        rw [hgl] at hx
        simp at hx hy; subst hx hy; exact e4) (by simp [hr])
      rw [hr] at this; exact this
    | cons tid right' =>
      have htid : tid ∈ g.nodes := (hout tid (by simp [hr])).1
      have hs := hlast sid hgl
      have ht := hfirst tid (by rw [hr]; rfl)
      obtain ⟨c, l1, c1, r1, e1, e2, e3, e4, e5⟩ := liftThrough_arc (left := left) (right := tid :: right') h.lawful h.sub hcyc hf hsid htid hs ht
      have hperm : b.path.reverse.Perm b.path := List.reverse_perm _
      obtain ⟨c', l1', c1', r1', e1', e2', e3', e4', e5'⟩ := liftThrough_arc (left := left) (right := tid :: right') h.lawful
        (bp := b.path.reverse) (fun x hx => h.sub x (hperm.mem_iff.1 hx)) (hcyc.reverse h.lawful)
        (by rw [hperm.length_eq]; exact hf) hsid htid
        (by obtain ⟨t, h1, h2⟩ := hs; exact ⟨t, hperm.mem_iff.2 h1, h2⟩)
        (by obtain ⟨t, h1, h2⟩ := ht; exact ⟨t, hperm.mem_iff.2 h1, h2⟩)
      -- both ways are good paths
      have good : ∀ (bp : List Nat) c l1 c1 r1, bp.Perm b.path → Cyclic g bp → (l1 ++ c1 :: r1).IsRotated bp →
          (l1 ++ [c1]).head? = some c → g.Adj sid c → g.Adj c1 tid →
          IsPath g (left ++ (l1 ++ [c1]) ++ tid :: right') ∧ (l1 ++ [c1]) ≠ [] ∧ (∀ x ∈ l1 ++ [c1], x ∈ b.path) ∧
            (l1 ++ [c1]).Nodup := by
        intro bp c l1 c1 r1 hperm hc hrot hhead ha1 ha2
        have esplit : l1 ++ c1 :: r1 = (l1 ++ [c1]) ++ r1 := by simp
        have hmem : ∀ x ∈ l1 ++ [c1], x ∈ b.path := fun x hx =>
          hperm.mem_iff.1 (hrot.perm.mem_iff.1 (by rw [esplit]; exact List.mem_append_left _ hx))
        have hnd1 : (l1 ++ [c1]).Nodup := by
          have := (hrot.perm.trans hperm).nodup_iff.2 h.nodup
          rw [esplit] at this
          exact (List.nodup_append.1 this).1
        have hch1 : (l1 ++ [c1]).IsChain g.Adj := (List.isChain_split.1 (hc.rot hrot).chain).1
        refine ⟨?_, by simp, hmem, hnd1⟩
        rw [← hr]
        refine isPath_join h.lawful h.sub hmem (by simp) hnd1 hch1 hchL hchR hlr hout ?_ ?_
        · intro x hx y hy
          rw [hgl] at hx; rw [hhead] at hy
          simp at hx hy; subst hx hy; exact ha1
        · intro x hx y hy
          rw [List.getLast?_concat] at hx; rw [hr] at hy
          simp at hx hy; subst hx hy; exact ha2
      have g1 := good b.path c l1 c1 r1 (List.Perm.refl _) hcyc e2 e3 e4 e5
      have g2 := good b.path.reverse c' l1' c1' r1' hperm (hcyc.reverse h.lawful) e2' e3' e4' e5'
      simp only [hle, List.isEmpty_cons, Bool.false_and, Bool.not_false, Bool.and_false, Bool.false_eq_true,
          if_false, liftLeftBlossomRight, hgl, vecIndex, List.getElem?_cons_zero, Out.ok_bind, e1, e1']
      split
      · rename_i heven
        refine ⟨l1 ++ [c1], rfl, g1.1, g1.2.1, g1.2.2.1, ?_, ?_⟩
        · rintro (h0 | h0)
          · rw [h0] at hgl; simp at hgl
          · simp at h0
        · intro _ _ _ _ _ _
          simpa using heven
      · rename_i hodd
        refine ⟨l1' ++ [c1'], rfl, g2.1, g2.2.1, g2.2.2.1, ?_, ?_⟩
        · rintro (h0 | h0)
          · rw [h0] at hgl; simp at hgl
          · simp at h0
        · intro x d hx hd ho he
          have hx := hx sid rfl
          have hd := hd tid rfl
          have hc1 : c = x := hx c (g1.2.2.1 c (List.mem_of_mem_head? (by rw [e3]; rfl))) e4
          have hc2 : c' = x := hx c' (g2.2.2.1 c' (List.mem_of_mem_head? (by rw [e3']; rfl))) e4'
          have hd1 : c1 = d := hd c1 (g1.2.2.1 c1 (by simp)) e5
          have hd2 : c1' = d := hd c1' (g2.2.2.1 c1' (by simp)) e5'
          subst hd1; subst hd2; subst hc1; subst hc2
          have hodd' : ¬ (left ++ (l1 ++ [c1']) ++ tid :: right').length % 2 = 0 := by simpa using hodd
          -- the two arcs together go round once
          have key : (l1 ++ [c1']).length = 1 ∧ (l1' ++ [c1']).length = 1 ∨
              (l1 ++ [c1']).length + (l1' ++ [c1']).length = b.path.length + 2 := by
            cases l1 with
            | nil =>
              left
              refine ⟨rfl, ?_⟩
              simp at e3
              cases l1' with
              | nil => rfl
              | cons y l1' =>
                simp at e3'; subst e3'; subst e3
                have := g2.2.2.2
                simp at this
            | cons y l1 =>
              right
              simp at e3; subst e3
              cases l1' with
              | nil =>
                simp at e3'; subst e3'
                have := g1.2.2.2
                simp at this
              | cons z l1' =>
                simp at e3'; subst e3'
                -- e2 : (c' :: l1 ++ c1' :: r1) ~r path ; e2' : (c' :: l1' ++ c1' :: r1') ~r path.reverse
                have h3 : (z :: l1' ++ c1' :: r1').IsRotated (z :: (l1 ++ c1' :: r1).reverse) := by
                  refine e2'.trans (e2.reverse.symm.trans ?_)
                  have : (z :: l1 ++ c1' :: r1).reverse = (l1 ++ c1' :: r1).reverse ++ [z] := by simp
                  rw [this]
                  exact List.isRotated_append
                have hndz : (z :: (l1 ++ c1' :: r1).reverse).Nodup := by
                  have := e2.perm.nodup_iff.2 h.nodup
                  rw [List.nodup_cons, List.mem_reverse, List.nodup_reverse, ← List.nodup_cons]
                  simpa using this
                have h4 := rot_head (by simpa using h3) hndz
                have hlen := e2.perm.length_eq
                have h5 : l1' ++ c1' :: r1' = r1.reverse ++ c1' :: l1.reverse := by
                  rw [h4]; simp
                have hndr : (r1.reverse ++ c1' :: l1.reverse).Nodup := by
                  have := (List.nodup_cons.1 hndz).2
                  simpa using this
                have h6 : l1' = r1.reverse := by
                  rw [List.append_eq_append_iff] at h5
                  rcases h5 with ⟨a, h5, h6⟩ | ⟨a, h5, h6⟩
                  · cases a with
                    | nil => simpa using h5.symm
                    | cons w a =>
                      simp at h6; obtain ⟨rfl, -⟩ := h6
                      rw [h5] at hndr
                      simp [List.nodup_append] at hndr
                  · cases a with
                    | nil => simpa using h5
                    | cons w a =>
                      simp at h6; obtain ⟨rfl, h7⟩ := h6
                      have : c1' ∈ l1.reverse := by rw [h7]; simp
                      simp only [List.nodup_append, List.nodup_cons] at hndr
                      exact absurd this hndr.2.1.1
                subst h6
                simp only [List.length_append, List.length_cons, List.length_nil, List.length_reverse] at hlen ⊢
                omega
          simp only [List.length_append, List.length_cons, List.length_nil] at hodd' he key ⊢
          omega

end Blossom
end Gamma
