import Verif.Proofs.Cliques
import Mathlib.Combinatorics.SimpleGraph.Acyclic
/-
A component with no more edges than nodes has no two odd cycles with different nodes.
-/
namespace Gamma

/-- Reachability survives the removal of an edge whose ends stay connected. -/
theorem reach_delete {H : SimpleGraph Nat} {a b : Nat} (h : (H.deleteEdges {s(a, b)}).Reachable a b) {v x : Nat}
    (hr : H.Reachable v x) : (H.deleteEdges {s(a, b)}).Reachable v x := by
  obtain ⟨w⟩ := hr
  induction w with
  | nil => exact .refl _
  | @cons u v' w' hadj _ ih =>
    refine SimpleGraph.Reachable.trans ?_ ih
    by_cases e : s(u, v') = s(a, b)
    · rcases Sym2.eq_iff.1 e with ⟨rfl, rfl⟩ | ⟨rfl, rfl⟩
      · exact h
      · exact h.symm
    · exact SimpleGraph.Adj.reachable (by rw [SimpleGraph.deleteEdges_adj]; exact ⟨hadj, e⟩)

/-- A closed chain of at least three different nodes, starting at `y`: its last edge may be removed. -/
theorem reach_around {H : SimpleGraph Nat} {y z : Nat} {l : List Nat} (hn : (y :: l).Nodup) (hl : 2 ≤ l.length)
    (hc : (y :: l).IsChain H.Adj) (hz : l.getLast? = some z) : (H.deleteEdges {s(y, z)}).Reachable y z := by
  have key : ∀ (l : List Nat) (a : Nat), (a :: l).IsChain H.Adj → (∀ x ∈ a :: l, x ≠ y) → ∀ z', (a :: l).getLast? = some z' →
      (H.deleteEdges {s(y, z)}).Reachable a z' := by
    intro l
    induction l with
    | nil => rintro a - - z' hz'; simp at hz'; subst hz'; exact .refl _
    | cons b l ih =>
      intro a hch hne z' hz'
      rw [List.isChain_cons_cons] at hch
      refine SimpleGraph.Reachable.trans (SimpleGraph.Adj.reachable ?_) (ih b hch.2 (fun x hx => hne x (by simp [hx])) z'
        (by simpa [List.getLast?_cons_cons] using hz'))
      rw [SimpleGraph.deleteEdges_adj]
      refine ⟨hch.1, ?_⟩
      simp only [Set.mem_singleton_iff, Sym2.eq_iff, not_or]
      exact ⟨fun h => hne a (by simp) h.1, fun h => hne b (by simp) h.2⟩
  cases l with
  | nil => simp at hl
  | cons b l =>
    rw [List.isChain_cons_cons] at hc
    obtain ⟨hy, hn'⟩ := List.nodup_cons.1 hn
    refine SimpleGraph.Reachable.trans (SimpleGraph.Adj.reachable ?_) (key l b hc.2 (fun x hx e => hy (e ▸ hx)) z hz)
    rw [SimpleGraph.deleteEdges_adj]
    refine ⟨hc.1, ?_⟩
    simp only [Set.mem_singleton_iff, Sym2.eq_iff, not_or]
    refine ⟨fun h => ?_, fun h => hy (by simp [h.2])⟩
    have hbz := h.2
    subst hbz
    cases l with
    | nil => simp at hl
    | cons c l =>
      rw [List.getLast?_cons_cons] at hz
      exact (List.nodup_cons.1 hn').1 (List.mem_of_getLast? hz)

/-- A component has at least as many edges as nodes, less one. -/
theorem component_edges (H : SimpleGraph Nat) (v : Nat) (hfin : {x | H.Reachable v x}.Finite) :
    {x | H.Reachable v x}.ncard ≤ {e ∈ H.edgeSet | ∀ x ∈ e, H.Reachable v x}.ncard + 1 := by
  set S : Set Nat := {x | H.Reachable v x} with hS
  have hconn : (H.induce S).Connected := by
    rw [SimpleGraph.connected_iff_exists_forall_reachable]
    refine ⟨⟨v, SimpleGraph.Reachable.refl v⟩, ?_⟩
    rintro ⟨x, hx⟩
    obtain ⟨w⟩ := hx
    have : ∀ y ∈ w.support, y ∈ S := fun y hy => ⟨w.takeUntil y hy⟩
    exact ⟨w.induce S this⟩
  have h := hconn.card_vert_le_card_edgeSet_add_one
  have e1 : Nat.card S = S.ncard := Nat.card_coe_set_eq S
  have e2 : Nat.card (H.induce S).edgeSet ≤ {e ∈ H.edgeSet | ∀ x ∈ e, H.Reachable v x}.ncard := by
    rw [Nat.card_coe_set_eq]
    have hfe : {e ∈ H.edgeSet | ∀ x ∈ e, H.Reachable v x}.Finite := by
      refine Set.Finite.subset (Set.Finite.image (fun z : Nat × Nat => s(z.1, z.2)) (hfin.prod hfin)) ?_
      rintro e ⟨-, he⟩
      induction e with
      | h a b => exact ⟨(a, b), ⟨he a (by simp), he b (by simp)⟩, rfl⟩
    refine Set.ncard_le_ncard_of_injOn (Sym2.map Subtype.val) ?_ ?_ hfe
    · intro e he
      induction e with
      | h a b =>
        refine ⟨by simpa using he, ?_⟩
        intro x hx
        simp only [Sym2.map_mk, Sym2.mem_iff] at hx
        rcases hx with rfl | rfl
        exacts [a.2, b.2]
    · exact (Sym2.map.injective Subtype.val_injective).injOn
  omega

variable {g : GraphI}

theorem OddCycle.simple_chain (hg : g.Lawful) {C : List Nat} (h : OddCycle g C) : C.IsChain g.simple.Adj := by
  rw [List.isChain_iff_getElem]
  intro i hi
  rw [hg.simple_adj]
  refine ⟨fun e => ?_, (List.isChain_iff_getElem.1 h.chain) i hi⟩
  have := (h.nodup.getElem_inj_iff).1 e
  omega

/-- An odd cycle, turned so that it starts at a node of it. -/
theorem OddCycle.from (hg : g.Lawful) {C : List Nat} (h : OddCycle g C) {y : Nat} (hy : y ∈ C) :
    ∃ l z, (y :: l).Nodup ∧ 2 ≤ l.length ∧ (y :: l).IsChain g.simple.Adj ∧ l.getLast? = some z ∧ g.simple.Adj y z ∧
      ∀ x, x ∈ y :: l ↔ x ∈ C := by
  obtain ⟨q, hq⟩ := rot_to hy
  have h' := h.rot hq.symm
  have hl := h'.long
  have hl2 : 2 ≤ q.length := by simpa using hl
  have hne : q ≠ [] := by rintro rfl; simp at hl2
  refine ⟨q, q.getLast hne, h'.nodup, hl2, h'.simple_chain hg, List.getLast?_eq_some_getLast hne, ?_, fun x => IsRotated.mem hq.symm⟩
  rw [hg.simple_adj]
  refine ⟨fun e => (List.nodup_cons.1 h'.nodup).1 (e ▸ List.getLast_mem hne), hg.adj_symm _ _ (h'.closes _ _ rfl ?_)⟩
  rw [List.getLast?_cons, List.getLast?_eq_some_getLast hne]
  rfl

/-- With no more edges than nodes, a component has at most one odd cycle. -/
theorem GraphI.LeanAt.same (hg : g.Lawful) {v : Nat} (hv : v ∈ g.nodes) (h : g.LeanAt v) {C D : List Nat} {x y : Nat} (hC : OddCycle g C)
    (hD : OddCycle g D) (hxD : x ∈ D) (hr : g.simple.Reachable v x) (hyC : y ∈ C) (hy : g.simple.Reachable v y) : y ∈ D := by
  by_contra hyD
  obtain ⟨l, z, hn, hl, hch, hz, hyz, hm⟩ := hC.from hg hyC
  obtain ⟨l', z', hn', hl', hch', hz', hxz, hm'⟩ := hD.from hg hxD
  have hfin : {x | g.simple.Reachable v x}.Finite := Set.Finite.subset (List.finite_toSet g.nodes) (fun x hx => reach_mem hg hx hv)
  have hzl : z ∈ l := List.mem_of_getLast? hz
  have hzl' : z' ∈ l' := List.mem_of_getLast? hz'
  -- the first edge removed is at `y`, so not on `D`
  set H1 := g.simple.deleteEdges {s(y, z)} with hH1
  have r1 : ∀ {a b}, g.simple.Reachable a b → H1.Reachable a b := fun h => reach_delete (reach_around hn hl hch hz) h
  have hne : ∀ a b, a ∈ x :: l' → s(a, b) ≠ s(y, z) ∨ b = y := by
    intro a b ha
    by_cases e : s(a, b) = s(y, z)
    · rcases Sym2.eq_iff.1 e with ⟨rfl, rfl⟩ | ⟨rfl, rfl⟩
      · exact absurd ((hm' a).1 ha) hyD
      · exact .inr rfl
    · exact .inl e
  have hin : ∀ a b, a ∈ x :: l' → b ∈ x :: l' → g.simple.Adj a b → H1.Adj a b := by
    intro a b ha hb hab
    rw [hH1, SimpleGraph.deleteEdges_adj]
    refine ⟨hab, ?_⟩
    rcases hne a b ha with h | h
    · exact h
    · exact absurd ((hm' b).1 hb) (h ▸ hyD)
  have hch1 : (x :: l').IsChain H1.Adj := by
    rw [List.isChain_iff_getElem] at hch' ⊢
    intro i hi
    exact hin _ _ (List.getElem_mem _) (List.getElem_mem _) (hch' i hi)
  have hxz1 : H1.Adj x z' := hin _ _ (by simp) (by simp [hzl']) hxz
  set H2 := H1.deleteEdges {s(x, z')} with hH2
  have r2 : ∀ {a b}, g.simple.Reachable a b → H2.Reachable a b := fun h => reach_delete (reach_around hn' hl' hch1 hz') (r1 h)
  have le2 : H2 ≤ g.simple := (SimpleGraph.deleteEdges_le _).trans (SimpleGraph.deleteEdges_le _)
  have eqr : ∀ a, H2.Reachable v a ↔ g.simple.Reachable v a := fun a => ⟨fun h => h.mono le2, r2⟩
  have h2 := component_edges H2 v (by simpa only [eqr] using hfin)
  simp only [eqr] at h2
  unfold GraphI.LeanAt at h
  have hfe : {e ∈ g.simple.edgeSet | ∀ x ∈ e, g.simple.Reachable v x}.Finite :=
    hg.edgeSet_finite.subset (fun _ h => h.1)
  have hlt : {e ∈ H2.edgeSet | ∀ x ∈ e, g.simple.Reachable v x}.ncard + 2 ≤
      {e ∈ g.simple.edgeSet | ∀ x ∈ e, g.simple.Reachable v x}.ncard := by
    have hsub : insert s(y, z) (insert s(x, z') {e ∈ H2.edgeSet | ∀ x ∈ e, g.simple.Reachable v x}) ⊆
        {e ∈ g.simple.edgeSet | ∀ x ∈ e, g.simple.Reachable v x} := by
      intro e he
      rcases he with rfl | rfl | ⟨he, hx⟩
      · refine ⟨hyz, fun a ha => ?_⟩
        rcases Sym2.mem_iff.1 ha with rfl | rfl
        exacts [hy, hy.trans (SimpleGraph.Adj.reachable hyz)]
      · refine ⟨hxz, fun a ha => ?_⟩
        rcases Sym2.mem_iff.1 ha with rfl | rfl
        exacts [hr, hr.trans (SimpleGraph.Adj.reachable hxz)]
      · exact ⟨SimpleGraph.edgeSet_mono le2 he, hx⟩
    have n1 : s(x, z') ∉ {e ∈ H2.edgeSet | ∀ x ∈ e, g.simple.Reachable v x} := by
      rintro ⟨h, -⟩
      rw [hH2, SimpleGraph.mem_edgeSet, SimpleGraph.deleteEdges_adj] at h
      exact h.2 rfl
    have n2 : s(y, z) ∉ insert s(x, z') {e ∈ H2.edgeSet | ∀ x ∈ e, g.simple.Reachable v x} := by
      rintro (h | ⟨h, -⟩)
      · have hxz2 := hxz1
        rw [hH1, SimpleGraph.deleteEdges_adj] at hxz2
        exact hxz2.2 h.symm
      · rw [hH2, SimpleGraph.mem_edgeSet, SimpleGraph.deleteEdges_adj, hH1, SimpleGraph.deleteEdges_adj] at h
        exact h.1.2 rfl
    have hf2 : {e ∈ H2.edgeSet | ∀ x ∈ e, g.simple.Reachable v x}.Finite :=
      hfe.subset (fun e h => ⟨SimpleGraph.edgeSet_mono le2 h.1, h.2⟩)
    have := Set.ncard_le_ncard hsub hfe
    rw [Set.ncard_insert_of_notMem n2 (hf2.insert _), Set.ncard_insert_of_notMem n1 hf2] at this
    omega
  omega

theorem OddCycle.reach (hg : g.Lawful) {C : List Nat} (h : OddCycle g C) {x y : Nat} (hx : x ∈ C) (hy : y ∈ C) : g.simple.Reachable x y := by
  obtain ⟨l, z, -, -, hch, -, -, hm⟩ := h.from hg hx
  have : ∀ (l : List Nat) (a : Nat), (a :: l).IsChain g.simple.Adj → ∀ c ∈ a :: l, g.simple.Reachable a c := by
    intro l
    induction l with
    | nil => intro a _ c hc; simp at hc; subst hc; exact .refl _
    | cons b l ih =>
      intro a hch c hc
      rw [List.isChain_cons_cons] at hch
      rcases List.mem_cons.1 hc with rfl | hc
      · exact .refl _
      · exact (SimpleGraph.Adj.reachable hch.1).trans (ih b hch.2 c hc)
  exact this l x hch y ((hm y).2 hy)

theorem GraphI.LeanAt.apart (hg : g.Lawful) {v : Nat} (hv : v ∈ g.nodes) (h : g.LeanAt v) : g.ApartAt v :=
  fun _ _ _ _ hC hD hxC hxD hr hyC => h.same hg hv hC hD hxD hr hyC (hr.trans (hC.reach hg hxC hyC))

end Gamma
