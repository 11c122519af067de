import Verif.Props.Narrow
/-
Properties C86 and C87: `maximum_matching` on complete graphs, on graphs whose components are complete, and on graphs some of
whose components are complete while the others have their odd cycles apart.
-/
namespace Gamma
open Pairing Blossom

/-! ### C86 -/

/-- A complete graph is one clique. -/
theorem GraphI.Complete.cliques {g : GraphI} (hg : g.Lawful) (hK : g.Complete) : g.Cliques :=
  fun u _ w h1 h2 hne => hK u (hg.adj_src h1) w (hg.adj_mem _ _ h2) hne

section
variable (g : GraphI) (hg : g.Lawful) (he : g.edges.Nodup) (hM : g.CliquesOrApart) (p : Pairing) (hp : p.Matches g) (pf : Platform)
include hg he hM hp

/-- **C87.**  On a graph each component of which is a clique, or else has no two odd cycles that share a node, `maximum_matching`,
started from any matching, returns for every large enough budget, with a maximum matching in which every node that was paired is
paired still. -/
theorem C87_total (hh : Headroom pf g) (ords : List Bool → Nat → HashOrder) (ho : ∀ l i, (ords l i).Valid) :
    ∃ N, ∀ fuel, N ≤ fuel → ∃ q, maximumMatching pf fuel ords g p = .ok q ∧ q.Matches g ∧
      (∀ x, p.hasNode x = true → q.hasNode x = true) ∧ ∀ ord : HashOrder, ord.Valid → IsMaximum g (q.edges ord) :=
  C90_total g hg he hM.easy p hp pf hh ords ho

/-- **C87, no panic**, with any budget. -/
theorem C87_no_panic (hh : Headroom pf g) (ords : List Bool → Nat → HashOrder) (ho : ∀ l i, (ords l i).Valid) (fuel : Nat)
    (m : String) : maximumMatching pf fuel ords g p ≠ .panic m :=
  C90_no_panic g hg he hM.easy p hp pf hh ords ho fuel m

/-- **C87, nothing is lost**, however the call ends: what was paired is paired in what is left of the pairing. -/
theorem C87_keeps (ords : List Bool → Nat → HashOrder) (ho : ∀ l i, (ords l i).Valid) (fuel : Nat) :
    (∀ x, p.hasNode x = true → (maximumMatchingLeft pf fuel ords g p).1.hasNode x = true) ∧
      p.order ≤ (maximumMatchingLeft pf fuel ords g p).1.order :=
  C90_keeps g hg he hM.easy p hp pf ords ho fuel

/-- **C87, effort.**  Every augmentation gains exactly one pair, so the number of searches is the one of C81, and there are no more
searches than nodes, plus one. -/
theorem C87_searches (ords : List Bool → Nat → HashOrder) (ho : ∀ l i, (ords l i).Valid) (fuel : Nat) (q : Pairing) (t : Tally)
    (h : maximumMatchingTally pf fuel ords g p = .ok (q, t)) (ord : HashOrder) (hord : ord.Valid) (M : List (Nat × Nat))
    (hmax : IsMaximum g M) :
    (p.edges ord).length + t.augmentations = M.length ∧ t.searches = 2 * (M.length - (p.edges ord).length) + 1 ∧
      t.depth = M.length - (p.edges ord).length + 1 ∧ t.searches ≤ g.order + 1 :=
  C90_searches g hg he hM.easy p hp pf ords ho fuel q t h ord hord M hmax

/-- **C87, polynomial time.**  The call asks for neighbors at most `(n + 1) (n / 2 + 1) (n + m)` times in all, self-loops aside. -/
theorem C87_polynomial (ords : List Bool → Nat → HashOrder) (ho : ∀ l i, (ords l i).Valid) (fuel : Nat) (q : Pairing)
    (looks : List (List Nat)) (h : maximumMatchingLooks pf fuel ords g p = .ok (q, looks)) :
    looks.flatten.sum ≤ (g.order + 1) * ((g.order / 2 + g.loops + 1) * (g.order + g.size)) :=
  C90_polynomial g hg he hM.easy p hp pf ords ho fuel q looks h

end

section
variable (g : GraphI) (hg : g.Lawful) (he : g.edges.Nodup) (hC : g.Cliques) (p : Pairing) (hp : p.Matches g) (pf : Platform)
include hg he hC hp

/-- **C86, cliques.**  On a graph each of whose components is complete (self-loops or not), `maximum_matching`, started from any
matching, returns for every large enough budget, with a maximum matching in which every node that was paired is paired still; and no
two nodes left over are adjacent, so at most one of each component is left over.  (The odd cycles of a complete graph share all
their nodes: C49 says nothing about it.) -/
theorem C86_total_cliques (hh : Headroom pf g) (ords : List Bool → Nat → HashOrder) (ho : ∀ l i, (ords l i).Valid) :
    ∃ N, ∀ fuel, N ≤ fuel → ∃ q, maximumMatching pf fuel ords g p = .ok q ∧ q.Matches g ∧
      (∀ x, p.hasNode x = true → q.hasNode x = true) ∧
      (∀ ord : HashOrder, ord.Valid → IsMaximum g (q.edges ord)) ∧
      ∀ u v, u ∈ g.nodes → v ∈ g.nodes → u ≠ v → q.hasNode u = false → q.hasNode v = false → ¬ g.Adj u v := by
  obtain ⟨N, hN⟩ := C87_total g hg he (hC.mixed hg) p hp pf hh ords ho
  refine ⟨N, fun fuel hf => ?_⟩
  obtain ⟨q, h, hq, hcov, hmax⟩ := hN fuel hf
  refine ⟨q, h, hq, hcov, hmax, ?_⟩
  intro u v hu hv hne hqu hqv ha
  have hm := hmax _root_.id HashOrder.id_valid
  have := hm.2 ((u, v) :: q.edges _root_.id) ⟨?_, ?_⟩
  · simp at this
  · intro e hmem
    rcases List.mem_cons.1 hmem with rfl | hmem
    · exact ⟨hne, ha⟩
    · exact hm.1.edge e hmem
  · refine List.pairwise_cons.2 ⟨?_, hm.1.disjoint⟩
    rintro ⟨a, b⟩ hab
    have hab := (mem_edges HashOrder.id_valid hq.symmetric).1 hab
    have ga : q.get a = some b := by tauto
    have gb := hq.symmetric.get_get ga
    rw [hasNode_false] at hqu hqv
    refine ⟨?_, ?_, ?_, ?_⟩ <;> (simp only; rintro rfl) <;> simp_all

/-- **C86, no panic**, with any budget. -/
theorem C86_no_panic_cliques (hh : Headroom pf g) (ords : List Bool → Nat → HashOrder) (ho : ∀ l i, (ords l i).Valid) (fuel : Nat)
    (m : String) : maximumMatching pf fuel ords g p ≠ .panic m :=
  C87_no_panic g hg he (hC.mixed hg) p hp pf hh ords ho fuel m

/-- **C86, what is paired stays paired**, whenever the call returns. -/
theorem C86_covers_cliques (ords : List Bool → Nat → HashOrder) (ho : ∀ l i, (ords l i).Valid) (fuel : Nat)
    (q : Pairing) (h : maximumMatching pf fuel ords g p = .ok q) (x : Nat) (hx : p.hasNode x = true) : q.hasNode x = true := by
  have h1 := (C87_keeps g hg he (hC.mixed hg) p hp pf ords ho fuel).1 x hx
  rwa [((C80_same_outcome pf fuel ords g p).1 q).1 h] at h1

/-- **C86, effort.**  Every augmentation gains exactly one pair, so the number of searches is the one of C81, and there are no more
searches than nodes, plus one. -/
theorem C86_searches_cliques (ords : List Bool → Nat → HashOrder) (ho : ∀ l i, (ords l i).Valid) (fuel : Nat) (q : Pairing) (t : Tally)
    (h : maximumMatchingTally pf fuel ords g p = .ok (q, t)) (ord : HashOrder) (hord : ord.Valid) (M : List (Nat × Nat))
    (hM : IsMaximum g M) :
    (p.edges ord).length + t.augmentations = M.length ∧ t.searches = 2 * (M.length - (p.edges ord).length) + 1 ∧
      t.depth = M.length - (p.edges ord).length + 1 ∧ t.searches ≤ g.order + 1 :=
  C87_searches g hg he (hC.mixed hg) p hp pf ords ho fuel q t h ord hord M hM

end

/-- **C87 covers C49 and C86**: both classes of graphs are among these. -/
theorem C87_covers (g : GraphI) (hg : g.Lawful) :
    (g.OddCyclesApart → g.CliquesOrApart) ∧ (g.Cliques → g.CliquesOrApart) ∧ (g.Complete → g.CliquesOrApart) :=
  ⟨fun h => h.mixed, fun h => h.mixed hg, fun h => (h.cliques hg).mixed hg⟩

/-- **C86, complete graphs.**  From any matching of a complete graph the call returns, for every large enough budget, with a
matching that leaves no node over if the number of nodes is even and one if it is odd; and every node that was paired is paired. -/
theorem C86_total_complete (g : GraphI) (hg : g.Lawful) (he : g.edges.Nodup) (hK : g.Complete) (p : Pairing) (hp : p.Matches g)
    (pf : Platform) (hh : Headroom pf g) (ords : List Bool → Nat → HashOrder) (ho : ∀ l i, (ords l i).Valid) :
    ∃ N, ∀ fuel, N ≤ fuel → ∃ q, maximumMatching pf fuel ords g p = .ok q ∧ q.Matches g ∧
      (∀ x, p.hasNode x = true → q.hasNode x = true) ∧
      (g.nodes.filter (fun x => !q.hasNode x)).length = g.order % 2 ∧ q.order = g.order - g.order % 2 := by
  obtain ⟨N, hN⟩ := C86_total_cliques g hg he (hK.cliques hg) p hp pf hh ords ho
  refine ⟨N, fun fuel hf => ?_⟩
  obtain ⟨q, h1, h2, h3, -, h5⟩ := hN fuel hf
  have h6 : (g.nodes.filter (fun x => !q.hasNode x)).length ≤ 1 := by
    by_contra hlt
    have hnd : (g.nodes.filter (fun x => !q.hasNode x)).Nodup := hg.nodes_nodup.filter _
    have hmem : ∀ x ∈ g.nodes.filter (fun x => !q.hasNode x), x ∈ g.nodes ∧ q.hasNode x = false := by
      intro x hx; simpa using List.mem_filter.1 hx
    generalize g.nodes.filter (fun x => !q.hasNode x) = l at hlt hnd hmem
    match l, hlt, hnd, hmem with
    | [], hlt, _, _ => simp at hlt
    | [_], hlt, _, _ => simp at hlt
    | a :: b :: l, _, hnd, hmem =>
      have ha := hmem a (by simp)
      have hb := hmem b (by simp)
      have hab : a ≠ b := fun e => (List.nodup_cons.1 hnd).1 (by simp [e])
      exact h5 a b ha.1 hb.1 hab ha.2 hb.2 (hK a ha.1 b hb.1 hab)
  have h7 := order_eq HashOrder.id_valid h2.symmetric
  have h8 := card_exposed hg h2
  have h9 : (exposed g q).card = (g.nodes.filter (fun x => !q.hasNode x)).length := by
    rw [← List.toFinset_card_of_nodup (hg.nodes_nodup.filter _)]
    congr 1
    ext x
    rw [mem_exposed, ← hasNode_false]
    simp
  refine ⟨q, h1, h2, h3, ?_, ?_⟩ <;> rw [hg.order_eq] <;> omega

/-- There are complete graphs with any number of nodes from 2 on. -/
theorem completeG_spec (n : Nat) (hn : 2 ≤ n) : (completeG n).toI.Complete ∧ (completeG n).toI.order = n ∧
    ∀ v, v ∈ (completeG n).toI.nodes ↔ v < n := by
  set es := (List.range n).flatMap fun i => (List.range i).map fun j => (j, i) with hes
  have hmem : ∀ a b, (a, b) ∈ es ↔ a < b ∧ b < n := by
    intro a b
    simp [hes]
    tauto
  have hnd : es.Nodup := by
    rw [hes, List.nodup_flatMap]
    refine ⟨fun i _ => (List.nodup_range).map (fun a b h => by simpa using h), ?_⟩
    refine List.Pairwise.imp ?_ List.nodup_range
    intro i j hij
    rw [Function.onFun, List.disjoint_left]
    rintro ⟨a, b⟩ h1 h2
    simp at h1 h2
    omega
  have hpw : es.Pairwise (fun e f => ¬ SameEdge e f) := by
    refine List.Pairwise.imp_of_mem ?_ hnd
    rintro ⟨a, b⟩ ⟨c, d⟩ h1 h2 hne
    rw [hmem] at h1 h2
    rintro (⟨h3, h4⟩ | ⟨h3, h4⟩)
    · exact hne (by simp_all)
    · simp only at h3 h4; omega
  rcases C11_edge_list es with ⟨-, g, h1, h2, h3, h4⟩ | ⟨pre, e, post, h1, -, ⟨f, hf, hs⟩, -⟩
  · have hg : completeG n = g := by unfold completeG graphOf; rw [← hes, h1]
    rw [hg]
    have hl : g.toI.Lawful := hg ▸ graphOf_lawful _
    have hn' : ∀ v, v ∈ g.toI.nodes ↔ v < n := by
      intro v
      show v ∈ g.nodes ↔ _
      rw [h3, List.mem_eraseDups]
      unfold endpoints
      simp only [List.mem_flatMap]
      constructor
      · rintro ⟨⟨a, b⟩, h5, h6⟩
        rw [hmem] at h5
        simp at h6; omega
      · intro hv
        by_cases h0 : v = 0
        · exact ⟨(0, 1), (hmem 0 1).2 (by omega), by simp [h0]⟩
        · exact ⟨(0, v), (hmem 0 v).2 (by omega), by simp⟩
    refine ⟨?_, ?_, hn'⟩
    · intro u hu v hv hne
      rw [hn'] at hu hv
      have he : ∀ a b, (a, b) ∈ es → g.toI.Adj a b := by
        intro a b hab
        refine hl.edges_adj a b ?_
        show (a, b) ∈ g.edges
        rw [h2]; exact hab
      rcases Nat.lt_or_gt_of_ne hne with h | h
      · exact he u v ((hmem u v).2 ⟨h, hv⟩)
      · exact hl.adj_symm _ _ (he v u ((hmem v u).2 ⟨h, hu⟩))
    · rw [hl.order_eq]
      have : (g.toI.nodes).Perm (List.range n) := by
        rw [List.perm_ext_iff_of_nodup hl.nodes_nodup List.nodup_range]
        intro a; rw [hn', List.mem_range]
      simpa using this.length_eq
  · rw [h1, List.pairwise_append] at hpw
    exact absurd hs (hpw.2.2 f hf e (by simp))

/-- **C86 of the complete graphs made by the library**: the graph that the edge list of the complete graph with `n` nodes gives,
and no matching to start with. -/
theorem C86_complete_family (n : Nat) (hn : 2 ≤ n) (pf : Platform) (hh : 3 * n ≤ pf.usizeMax) (ords : List Bool → Nat → HashOrder)
    (ho : ∀ l i, (ords l i).Valid) :
    ∃ N, ∀ fuel, N ≤ fuel → ∃ q, maximumMatching pf fuel ords (completeG n).toI Pairing.new = .ok q ∧
      q.Matches (completeG n).toI ∧ q.order = n - n % 2 := by
  obtain ⟨h1, h2, h3⟩ := completeG_spec n hn
  have hh' : Headroom pf (completeG n).toI := by
    intro v hv
    have hlen : (completeG n).toI.nodes.length = n := (GraphI.Lawful.order_eq (graphOf_lawful _)).symm.trans h2
    have hl0 : (completeG n).toI.loops ≤ n := by
      unfold GraphI.loops; exact List.countP_le_length.trans hlen.le
    have := (h3 v).1 hv
    unfold GraphI.depth
    omega
  obtain ⟨N, hN⟩ := C86_total_complete _ (graphOf_lawful _) (graphOf_edges _) h1 _ (matches_of symmetric_new (by simp [Pairing.new, Pairing.get])) pf hh' ords ho
  refine ⟨N, fun fuel hf => ?_⟩
  obtain ⟨q, a1, a2, -, -, a5⟩ := hN fuel hf
  exact ⟨q, a1, a2, by rw [a5, show (graphOf _).toI.order = n from h2]⟩

/-- Complete in three parts: 0, 1 and 3; 2 and 6; 4 and 5. -/
def threeParts : DefaultGraph := built 7
  [(5, 6), (2, 5), (0, 2), (6, 3), (1, 5), (4, 0), (1, 6), (5, 0), (5, 3), (4, 3), (0, 6), (2, 3), (1, 2), (6, 4), (4, 1), (4, 2)]

/-- **C86, the limits.**  It is not enough that a graph is nearly complete: here two nodes are adjacent unless they are in the same one
of three parts, and the call panics. -/
theorem C86_three_parts_panic (b : Bool) :
    (∀ x ∈ threeParts.toI.nodes, ∀ y ∈ threeParts.toI.nodes, threeParts.toI.Adj x y ↔
      ¬ ((x ∈ [0, 1, 3] ∧ y ∈ [0, 1, 3]) ∨ (x ∈ [2, 6] ∧ y ∈ [2, 6]) ∨ (x ∈ [4, 5] ∧ y ∈ [4, 5]))) ∧
    threeParts.toI.order = 7 ∧ (pairingOf [(0, 5)]).Matches threeParts.toI ∧
    ∃ N, ∀ fuel, N ≤ fuel → maximumMatching (pf64 b) fuel (fun _ _ => _root_.id) threeParts.toI (pairingOf [(0, 5)]) =
      .panic "even path augmentation" := by
  have hadj : ∀ x ∈ threeParts.toI.nodes, ∀ y ∈ threeParts.toI.nodes, y ∈ threeParts.toI.nbr x ↔
      ¬ ((x ∈ [0, 1, 3] ∧ y ∈ [0, 1, 3]) ∨ (x ∈ [2, 6] ∧ y ∈ [2, 6]) ∨ (x ∈ [4, 5] ∧ y ∈ [4, 5])) := by decide +kernel
  refine ⟨fun x hx y hy => GraphI.mem_nbr.symm.trans (hadj x hx y hy), by decide +kernel, matches_of_test (by decide +kernel), 20,
    fun fuel hf => ?_⟩
  have h : maximumMatching (pf64 b) 20 (fun _ _ => _root_.id) threeParts.toI (pairingOf [(0, 5)]) =
      .panic "even path augmentation" := by revert b; decide +kernel
  exact (maximumMatching_le (pf := pf64 b) (ord := _root_.id) hf _ _).eq h (by simp)

/-! #### Examples -/

/-- Two cliques, of four and of five nodes, one with a self-loop. -/
def twoCliques : DefaultGraph := graphOf
  [(0, 1), (0, 2), (0, 3), (1, 2), (1, 3), (2, 3), (4, 5), (4, 6), (4, 7), (4, 8), (5, 6), (5, 7), (5, 8), (6, 7), (6, 8), (7, 8), (4, 4)]

theorem twoCliques_cliques : twoCliques.toI.Cliques := by
  have hl : twoCliques.toI.Lawful := graphOf_lawful _
  have key : ∀ u ∈ twoCliques.toI.nodes, ∀ v ∈ twoCliques.toI.nodes, ∀ w ∈ twoCliques.toI.nodes,
      v ∈ twoCliques.toI.nbr u → w ∈ twoCliques.toI.nbr v → u ≠ w → w ∈ twoCliques.toI.nbr u := by decide +kernel
  intro u v w h1 h2 hne
  exact GraphI.mem_nbr.1 (key u (hl.adj_src h1) v (hl.adj_src h2) w (hl.adj_mem _ _ h2) (GraphI.mem_nbr.2 h1) (GraphI.mem_nbr.2 h2) hne)

/-- The hypotheses hold of it, from no pairs and from a matching that must be given up in part; and its odd cycles are not apart. -/
example (b : Bool) : twoCliques.toI.Lawful ∧ twoCliques.toI.edges.Nodup ∧ twoCliques.toI.Cliques ∧
    (pairingOf [(1, 2), (5, 6), (7, 8)]).Matches twoCliques.toI ∧ Headroom (pf64 b) twoCliques.toI ∧ ¬ twoCliques.toI.OddCyclesApart ∧
    ∃ q t, maximumMatchingTally (pf64 b) 30 (fun _ _ => _root_.id) twoCliques.toI (pairingOf [(1, 2), (5, 6), (7, 8)]) = .ok (q, t) ∧
      q.order = 8 ∧ t.searches = 3 := by
  refine ⟨graphOf_lawful _, graphOf_edges _, twoCliques_cliques, matches_of_test (by decide +kernel),
    headroom_of (by cases b <;> decide +kernel), ?_, ?_⟩
  · intro h
    have tri3 : ∀ a b c, (b ∈ twoCliques.toI.nbr a ∧ c ∈ twoCliques.toI.nbr b ∧ a ∈ twoCliques.toI.nbr c ∧ [a, b, c].Nodup) →
        OddCycle twoCliques.toI [a, b, c] := by
      rintro a b c ⟨h1, h2, h3, h4⟩
      refine ⟨h4, by simp, by simp, ?_, ?_⟩
      · simp only [List.isChain_cons_cons]
        exact ⟨GraphI.mem_nbr.1 h1, GraphI.mem_nbr.1 h2, .singleton _⟩
      · intro x y hx hy
        simp at hx hy; subst hx hy
        exact GraphI.mem_nbr.1 h3
    have := h [0, 1, 2] [0, 1, 3] 0 2 (tri3 0 1 2 (by decide +kernel)) (tri3 0 1 3 (by decide +kernel)) (by simp) (by simp) (by simp)
    simp at this
  · have : ∀ b, ∃ x : Pairing × Tally, x.1.order = 8 ∧ x.2.searches = 3 ∧
        maximumMatchingTally (pf64 b) 30 (fun _ _ => _root_.id) twoCliques.toI (pairingOf [(1, 2), (5, 6), (7, 8)]) = .ok x := by
      have h : ∀ b, (maximumMatchingTally (pf64 b) 30 (fun _ _ => _root_.id) twoCliques.toI (pairingOf [(1, 2), (5, 6), (7, 8)]) >>=
          fun x => (if x.1.order = 8 ∧ x.2.searches = 3 then .ok () else .timeout : Out Unit)) = .ok () := by decide +kernel
      intro b
      have h := h b
      rw [Out.bind_eq_ok] at h
      obtain ⟨x, e, h⟩ := h
      split at h
      · exact ⟨x, by tauto, by tauto, e⟩
      · cases h
    obtain ⟨⟨q, t⟩, h1, h2, h3⟩ := this b
    exact ⟨q, t, h3, h1, h2⟩

/-- A clique of four nodes, and a triangle with a tail. -/
def mixedG : DefaultGraph := graphOf [(0, 1), (0, 2), (0, 3), (1, 2), (1, 3), (2, 3), (4, 5), (5, 6), (6, 4), (6, 7)]

theorem mixedG_mixed : mixedG.toI.CliquesOrApart := by
  have hl : mixedG.toI.Lawful := graphOf_lawful _
  have k1 : ∀ x ∈ [0, 1, 2, 3], ∀ y ∈ mixedG.toI.nbr x, y ∈ [0, 1, 2, 3] := by decide +kernel
  have k2 : ∀ x ∈ [4, 5, 6, 7], ∀ y ∈ mixedG.toI.nbr x, y ∈ [4, 5, 6, 7] := by decide +kernel
  have k3 : ∀ x ∈ [0, 1, 2, 3], ∀ y ∈ [0, 1, 2, 3], x ≠ y → y ∈ mixedG.toI.nbr x := by decide +kernel
  have k4 : ∀ C ∈ oddCyclesOf mixedG.toI, ∀ D ∈ oddCyclesOf mixedG.toI, ∀ x ∈ C, x ∈ D → x ∈ [4, 5, 6, 7] → ∀ y ∈ C, y ∈ D := by
    decide +kernel
  have k5 : ∀ x ∈ mixedG.toI.nodes, x ∈ [0, 1, 2, 3] ∨ x ∈ [4, 5, 6, 7] := by decide +kernel
  intro v hv
  rcases k5 v hv with h | h
  · refine .inl fun x y hx hy hne => GraphI.mem_nbr.1 (k3 x ?_ y ?_ hne)
    · exact reach_induct hl (Q := (· ∈ [0, 1, 2, 3])) (fun a b ha hb => k1 a ha b (GraphI.mem_nbr.2 hb)) hx h
    · exact reach_induct hl (Q := (· ∈ [0, 1, 2, 3])) (fun a b ha hb => k1 a ha b (GraphI.mem_nbr.2 hb)) hy h
  · exact .inr fun C D x y hC hD hxC hxD hr hy => k4 C (mem_oddCyclesOf hl hC) D (mem_oddCyclesOf hl hD) x hxC hxD
      (reach_induct hl (Q := (· ∈ [4, 5, 6, 7])) (fun a b ha hb => k2 a ha b (GraphI.mem_nbr.2 hb)) hr h) y hy

/-- The hypotheses of C87 hold of it, with a matching of two pairs, and neither those of C86 nor those of C49 do. -/
example (b : Bool) : mixedG.toI.Lawful ∧ mixedG.toI.edges.Nodup ∧ mixedG.toI.CliquesOrApart ∧ ¬ mixedG.toI.Cliques ∧
    ¬ mixedG.toI.OddCyclesApart ∧ (pairingOf [(1, 2), (4, 5)]).Matches mixedG.toI ∧ Headroom (pf64 b) mixedG.toI ∧
    ∃ q, maximumMatching (pf64 b) 30 (fun _ _ => _root_.id) mixedG.toI (pairingOf [(1, 2), (4, 5)]) = .ok q ∧ q.order = 8 := by
  refine ⟨graphOf_lawful _, graphOf_edges _, mixedG_mixed, ?_, ?_, matches_of_test (by decide +kernel),
    headroom_of (by cases b <;> decide +kernel), ?_⟩
  · intro h
    have := h 5 6 7 (GraphI.mem_nbr.1 (by decide +kernel)) (GraphI.mem_nbr.1 (by decide +kernel)) (by simp)
    exact absurd (GraphI.mem_nbr.2 this) (by decide +kernel)
  · intro h
    have tri3 : ∀ a b c, (b ∈ mixedG.toI.nbr a ∧ c ∈ mixedG.toI.nbr b ∧ a ∈ mixedG.toI.nbr c ∧ [a, b, c].Nodup) →
        OddCycle mixedG.toI [a, b, c] := by
      rintro a b c ⟨h1, h2, h3, h4⟩
      refine ⟨h4, by simp, by simp, ?_, ?_⟩
      · simp only [List.isChain_cons_cons]
        exact ⟨GraphI.mem_nbr.1 h1, GraphI.mem_nbr.1 h2, .singleton _⟩
      · intro x y hx hy
        simp at hx hy; subst hx hy
        exact GraphI.mem_nbr.1 h3
    have := h [0, 1, 2] [0, 1, 3] 0 2 (tri3 0 1 2 (by decide +kernel)) (tri3 0 1 3 (by decide +kernel)) (by simp) (by simp) (by simp)
    simp at this
  · have h : ∀ b, (maximumMatching (pf64 b) 30 (fun _ _ => _root_.id) mixedG.toI (pairingOf [(1, 2), (4, 5)]) >>=
        fun q => (if q.order = 8 then .ok () else .timeout : Out Unit)) = .ok () := by decide +kernel
    have h := h b
    rw [Out.bind_eq_ok] at h
    obtain ⟨q, e, h⟩ := h
    split at h
    · exact ⟨q, e, by assumption⟩
    · cases h

end Gamma
