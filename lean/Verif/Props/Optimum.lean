import Verif.Props.Matching
import Verif.Proofs.Berge
/-
Properties C51–C53: what the size of the matching found by `maximum_matching` says about the graph.
-/
namespace Gamma
open Pairing Blossom

/-! ### C51: a reason why no matching is larger -/

/-- **C51, the bound.**  Deleting any set `A` of nodes bounds every matching of the graph: of the components with an
odd number of nodes that are left, each has a node that is uncovered or matched into `A`. -/
theorem C51_every_set_bounds (g : GraphI) (hg : g.Lawful) (A : Finset Nat) (hA : ∀ a ∈ A, a ∈ g.nodes)
    (M : List (Nat × Nat)) (hM : IsMatching g M) : g.oddParts A + 2 * M.length ≤ g.nodes.length + A.card :=
  berge_le hg hM hA

theorem MatchingReturns.spec {g : GraphI} (hg : g.Lawful) (he : g.edges.Nodup) {p : Pairing} (hp : p.Matches g)
    {pf : Platform} {q : Pairing} (h : MatchingReturns pf g p q) : q.Matches g ∧ ∃ A c, Cert g q A c := by
  obtain ⟨ords, fuel, ho, h⟩ := h
  rcases maximumMatching_spec (pf := pf) hg he fuel hp ho with ⟨q', e, hq, A, c, hC⟩ | e | ⟨m, e, -⟩ | e
  · rw [h] at e; injection e with e; subst e
    exact ⟨hq, A, c, hC⟩
  all_goals rw [h] at e; simp at e

/-- **C51.** When `maximum_matching(g, p)` returns, there is a set `A` of nodes for which the bound is attained: the
nodes left unpaired are exactly as many as the odd components of `g` without `A` outnumber `A` (the Tutte–Berge
formula).  So the result is the largest matching for a reason that can be checked without trusting the program. -/
theorem C51_bound_attained (g : GraphI) (hg : g.Lawful) (he : g.edges.Nodup) (p : Pairing) (hp : p.Matches g)
    (pf : Platform) (q : Pairing) (h : MatchingReturns pf g p q) :
    ∃ A : Finset Nat, (∀ a ∈ A, a ∈ g.nodes) ∧ g.oddParts A + q.order = g.nodes.length + A.card := by
  obtain ⟨hq, A, c, hC⟩ := h.spec hg he hp
  exact hC.berge hg hq

/-- **C51, perfect matchings** (Tutte).  When `maximum_matching(g, p)` returns, every node is paired exactly when no
deletion of nodes leaves more odd components than nodes were deleted. -/
theorem C51_all_paired_iff (g : GraphI) (hg : g.Lawful) (he : g.edges.Nodup) (p : Pairing) (hp : p.Matches g)
    (pf : Platform) (q : Pairing) (h : MatchingReturns pf g p q) :
    (∀ v ∈ g.nodes, q.hasNode v = true) ↔ ∀ A : Finset Nat, (∀ a ∈ A, a ∈ g.nodes) → g.oddParts A ≤ A.card := by
  obtain ⟨hq, -⟩ := h.spec hg he hp
  have hx := card_exposed hg hq
  have hall : (∀ v ∈ g.nodes, q.hasNode v = true) ↔ (exposed g q).card = 0 := by
    rw [Finset.card_eq_zero, Finset.eq_empty_iff_forall_notMem]
    refine ⟨fun h v hv => ?_, fun h v hv => ?_⟩
    · rw [mem_exposed] at hv
      obtain ⟨y, e⟩ := hasNode_iff.1 (h v hv.1)
      rw [hv.2] at e; simp at e
    · rw [hasNode_iff]
      have := h v
      rw [mem_exposed] at this
      exact Option.ne_none_iff_exists'.1 (fun e => this ⟨hv, e⟩)
  rw [hall]
  constructor
  · intro h0 A hA
    have h1 := C51_every_set_bounds g hg A hA _ (hq.isMatching HashOrder.id_valid)
    have h2 := order_eq HashOrder.id_valid hq.symmetric
    omega
  · intro hT
    obtain ⟨A, hA, e⟩ := C51_bound_attained g hg he p hp pf q h
    have := hT A hA
    omega

/-- The triangle with a tail: from the pairing 1-2 the call returns, and every node is paired. -/
example : MatchingReturns (pf64 true) tri.toI (pairingOf [(1, 2)]) (pairingOf [(0, 1), (2, 3)]) ∧
    ∀ v ∈ tri.toI.nodes, (pairingOf [(0, 1), (2, 3)]).hasNode v = true :=
  ⟨⟨fun _ _ => id, 14, fun _ _ => HashOrder.id_valid, tri_run true⟩, by decide +kernel⟩

/-- A star with three leaves: the call returns with two nodes unpaired. -/
def star3 : DefaultGraph := graphOf [(0, 1), (0, 2), (0, 3)]

theorem star3_returns : MatchingReturns (pf64 true) star3.toI .new (pairingOf [(0, 1)]) :=
  ⟨fun _ _ => id, 12, fun _ _ => HashOrder.id_valid, by decide +kernel⟩

/-- So some deletion of nodes leaves more odd components than nodes were deleted (the centre: three single leaves). -/
example : ∃ A : Finset Nat, (∀ a ∈ A, a ∈ star3.toI.nodes) ∧ A.card < star3.toI.oddParts A := by
  by_contra hc
  push Not at hc
  have := (C51_all_paired_iff star3.toI (graphOf_lawful _) (graphOf_edges _) .new (matches_of_test (by decide +kernel))
    _ _ star3_returns).2 hc
  exact absurd this (by decide +kernel)

/-! ### C52: bipartite graphs -/

theorem bool_colour {g : GraphI} (hb : g.simple.Colorable 2) :
    ∃ col : Nat → Bool, ∀ u v, u ≠ v → g.Adj u v → col u ≠ col v := by
  obtain ⟨C⟩ := hb
  refine ⟨fun v => decide (C v = 0), fun u v hne h => ?_⟩
  have := C.valid (v := u) (w := v) (by rw [GraphI.simple, SimpleGraph.fromRel_adj]; exact ⟨hne, .inl h⟩)
  intro e
  simp only [decide_eq_decide] at e
  have key : ∀ a b : Fin 2, a ≠ b → (a = 0 ↔ b = 0) → False := by decide
  exact key _ _ this e

/-- **C52** (Kőnig).  On a bipartite graph, when `maximum_matching(g, p)` returns, the number of its pairs is the number of
nodes of a smallest vertex cover: some set of nodes with as many elements meets every edge, and no smaller one does. -/
theorem C52_smallest_cover (g : GraphI) (hg : g.Lawful) (he : g.edges.Nodup) (hb : g.simple.Colorable 2)
    (p : Pairing) (hp : p.Matches g) (pf : Platform) (q : Pairing) (h : MatchingReturns pf g p q) :
    ∃ S : Finset Nat, (∀ v ∈ S, v ∈ g.nodes) ∧ g.simple.IsVertexCover S ∧ 2 * S.card = q.order ∧
      ∀ T : Finset Nat, g.simple.IsVertexCover T → S.card ≤ T.card := by
  obtain ⟨hq, A, c, hC⟩ := h.spec hg he hp
  obtain ⟨col, hcol⟩ := bool_colour hb
  obtain ⟨S, h1, h2, h3⟩ := hC.cover hg hq col hcol
  have le : ∀ T : Finset Nat, g.simple.IsVertexCover T → q.order ≤ 2 * T.card := by
    intro T hT
    have := matching_le_cover (hq.isMatching HashOrder.id_valid) T (fun u v hne hadj =>
      hT (by rw [GraphI.simple, SimpleGraph.fromRel_adj]; exact ⟨hne, .inl hadj⟩))
    have := order_eq HashOrder.id_valid hq.symmetric
    omega
  have hS : g.simple.IsVertexCover S := by
    intro u v huv
    rw [GraphI.simple, SimpleGraph.fromRel_adj] at huv
    exact h2 u v huv.1 (huv.2.elim (fun h => h) (hg.adj_symm _ _))
  refine ⟨S, h1, hS, le_antisymm h3 (le S hS), fun T hT => ?_⟩
  have := le T hT
  omega

/-- **C52, total.**  On a bipartite graph without self-loops it does return, for every hash order and large enough
budget, so a smallest vertex cover has as many nodes as the result has pairs. -/
theorem C52_bipartite_returns (g : GraphI) (hg : g.Lawful) (he : g.edges.Nodup) (hl : g.Loopless) (hb : g.simple.Colorable 2)
    (p : Pairing) (hp : p.Matches g) (pf : Platform) :
    ∃ q, MatchingReturns pf g p q ∧
      ∃ S : Finset Nat, g.simple.IsVertexCover S ∧ 2 * S.card = q.order ∧
        ∀ T : Finset Nat, g.simple.IsVertexCover T → S.card ≤ T.card := by
  obtain ⟨q, h, -⟩ := bipartite_run g hg hl hb p hp pf (fun _ _ => id) (fun _ _ => HashOrder.id_valid) _ (le_refl _)
  have hr : MatchingReturns pf g p q := ⟨_, _, fun _ _ => HashOrder.id_valid, h⟩
  obtain ⟨S, -, h2, h3, h4⟩ := C52_smallest_cover g hg he hb p hp pf q hr
  exact ⟨q, hr, S, h2, h3, h4⟩

/-- A case of C52: on the path 0-1-2-3 from the pair 1-2, the call returns two pairs, and a smallest vertex cover has two nodes. -/
example : pathG.toI.Lawful ∧ pathG.toI.edges.Nodup ∧ pathG.toI.Loopless ∧ pathG.toI.simple.Colorable 2 ∧
    (pairingOf [(1, 2)]).Matches pathG.toI ∧
    MatchingReturns (pf64 true) pathG.toI (pairingOf [(1, 2)]) (pairingOf [(3, 2), (1, 0)]) ∧ (pairingOf [(3, 2), (1, 0)]).order = 4 :=
  ⟨pathG_lawful, by decide +kernel, pathG_loopless, pathG_acyclic.isBipartite, matches_of_test (by decide +kernel),
    ⟨fun _ _ => id, 14, fun _ _ => HashOrder.id_valid, by decide +kernel⟩, by decide⟩

/-! ### C53: the size found depends on the graph only -/

theorem MatchingReturns.bound {g : GraphI} (hg : g.Lawful) (he : g.edges.Nodup) {p : Pairing} (hp : p.Matches g)
    {pf : Platform} {q : Pairing} (h : MatchingReturns pf g p q) (M : List (Nat × Nat)) (hM : IsMatching g M) :
    2 * M.length ≤ q.order := by
  obtain ⟨hq, A, c, hC⟩ := h.spec hg he hp
  exact hC.maximum hg hq hM

/-- **C53, embeddings.**  If the nodes of `g` can be renamed to nodes of `h`, different ones to different ones, such that
edges become edges, then `maximum_matching` finds on `h` at least as many pairs as on `g` — whatever the pairings it
starts from, the hash orders and the platforms. -/
theorem C53_embedding (g h : GraphI) (hg : g.Lawful) (hh : h.Lawful) (ge : g.edges.Nodup) (he : h.edges.Nodup)
    (f : Nat → Nat) (inj : ∀ u ∈ g.nodes, ∀ v ∈ g.nodes, f u = f v → u = v)
    (adj : ∀ u v, u ≠ v → g.Adj u v → h.Adj (f u) (f v))
    (p p' : Pairing) (hp : p.Matches g) (hp' : p'.Matches h) (pf pf' : Platform) (q q' : Pairing)
    (r : MatchingReturns pf g p q) (r' : MatchingReturns pf' h p' q') : q.order ≤ q'.order := by
  obtain ⟨hq, -⟩ := r.spec hg ge hp
  have h1 := r'.bound hh he hp' _ ((hq.isMatching HashOrder.id_valid).map hg f inj adj)
  have h2 := order_eq HashOrder.id_valid hq.symmetric
  rw [List.length_map] at h1
  omega

/-- **C53.** On one graph, `maximum_matching` ends with the same number of pairs whatever pairing it starts from, the
empty one, the greedy one or any other matching. -/
theorem C53_same_size (g : GraphI) (hg : g.Lawful) (ge : g.edges.Nodup) (p p' : Pairing) (hp : p.Matches g)
    (hp' : p'.Matches g) (pf pf' : Platform) (q q' : Pairing)
    (r : MatchingReturns pf g p q) (r' : MatchingReturns pf' g p' q') : q.order = q'.order :=
  le_antisymm
    (C53_embedding g g hg hg ge ge id (fun _ _ _ _ h => h) (fun _ _ _ h => h) p p' hp hp' pf pf' q q' r r')
    (C53_embedding g g hg hg ge ge id (fun _ _ _ _ h => h) (fun _ _ _ h => h) p' p hp' hp pf' pf q' q r' r)

/-- **C53, renaming.**  Renaming the nodes (and with it any change of the order in which nodes, edges and neighbors are
iterated) does not change the number of pairs found. -/
theorem C53_renaming (g h : GraphI) (hg : g.Lawful) (hh : h.Lawful) (ge : g.edges.Nodup) (he : h.edges.Nodup)
    (f : Nat → Nat) (inj : ∀ u ∈ g.nodes, ∀ v ∈ g.nodes, f u = f v → u = v)
    (onto : ∀ v ∈ h.nodes, ∃ u ∈ g.nodes, f u = v)
    (adj : ∀ u ∈ g.nodes, ∀ v ∈ g.nodes, u ≠ v → (g.Adj u v ↔ h.Adj (f u) (f v)))
    (p p' : Pairing) (hp : p.Matches g) (hp' : p'.Matches h) (pf pf' : Platform) (q q' : Pairing)
    (r : MatchingReturns pf g p q) (r' : MatchingReturns pf' h p' q') : q.order = q'.order := by
  have mem : ∀ k : GraphI, k.Lawful → ∀ u v, k.Adj u v → u ∈ k.nodes ∧ v ∈ k.nodes := fun k hk u v h =>
    ⟨hk.adj_mem _ _ (hk.adj_symm _ _ h), hk.adj_mem _ _ h⟩
  refine le_antisymm (C53_embedding g h hg hh ge he f inj (fun u v hne e => ?_) p p' hp hp' pf pf' q q' r r') ?_
  · exact (adj u (mem g hg u v e).1 v (mem g hg u v e).2 hne).1 e
  · choose! k hk hfk using onto
    refine C53_embedding h g hh hg he ge k (fun u hu v hv e => ?_) (fun u v hne e => ?_) p' p hp' hp pf' pf q' q r' r
    · rw [← hfk u hu, ← hfk v hv, e]
    · have hu := (mem h hh u v e).1; have hv := (mem h hh u v e).2
      refine (adj _ (hk u hu) _ (hk v hv) (fun e' => hne ?_)).2 ?_
      · rw [← hfk u hu, ← hfk v hv, e']
      · rw [hfk u hu, hfk v hv]; exact e

/-- **C53, equal graphs.**  Graphs that compare equal with `==`, however they were built, get the same number of pairs. -/
theorem C53_equal_graphs (g h : DefaultGraph) (hg : g.ReachableNoAdjLoop) (hh : h.ReachableNoAdjLoop)
    (heq : g.eq h = .ok true) (p p' : Pairing) (hp : p.Matches g.toI) (hp' : p'.Matches h.toI) (pf pf' : Platform)
    (q q' : Pairing) (r : MatchingReturns pf g.toI p q) (r' : MatchingReturns pf' h.toI p' q') : q.order = q'.order := by
  have lg := C38_default_graph g hg.reachable
  have lh := C38_default_graph h hh.reachable
  obtain ⟨b, h1, h2⟩ := C12_eq g h hg hh
  rw [heq] at h1; injection h1 with h1; subst h1
  obtain ⟨hn, hE⟩ := h2.1 rfl
  have key : ∀ k : DefaultGraph, k.toI.Lawful → ∀ u v, u ∈ k.toI.nodes → v ∈ k.toI.nodes →
      (k.hasEdge u v = .ok true ↔ k.toI.Adj u v) := by
    intro k hk u v hu hv
    obtain ⟨b, e, hb⟩ := hk.hasEdge_ok u v hu hv
    have e' : k.hasEdge u v = .ok b := e
    rw [e']; simp [hb]
  have hnodes : ∀ v, v ∈ g.toI.nodes ↔ v ∈ h.toI.nodes := fun v => by
    rw [← lg.1.hasNode_iff, ← lh.1.hasNode_iff]
    show g.hasNode v = true ↔ h.hasNode v = true
    rw [hn v]
  refine C53_renaming g.toI h.toI lg.1 lh.1 lg.2 lh.2 id (fun _ _ _ _ e => e) (fun v hv => ⟨v, (hnodes v).2 hv, rfl⟩)
    (fun u hu v hv hne => ?_) p p' hp hp' pf pf' q q' r r'
  rw [← key g lg.1 u v hu hv, hE u v]
  exact key h lh.1 u v ((hnodes u).1 hu) ((hnodes v).1 hv)

/-- **C53, one more edge.**  A successful `add_edge` raises the number of pairs found by at most one and never lowers it
(`order()` counts nodes, so it grows by 0 or 2). -/
theorem C53_add_edge (g : DefaultGraph) (hg : g.Reachable) (s t : Nat) (p p' : Pairing)
    (hp : p.Matches g.toI) (hp' : p'.Matches (g.addEdge s t).1.toI) (pf pf' : Platform) (q q' : Pairing)
    (r : MatchingReturns pf g.toI p q) (r' : MatchingReturns pf' (g.addEdge s t).1.toI p' q') :
    q.order ≤ q'.order ∧ q'.order ≤ q.order + 2 := by
  have lg := C38_default_graph g hg
  have lh := C38_default_graph _ (.addEdge g s t hg)
  have key : (g.addEdge s t).1 = g ∨ ∀ u v, (g.addEdge s t).1.toI.Adj u v ↔
      g.toI.Adj u v ∨ (u = s ∧ v = t) ∨ (u = t ∧ v = s) := by
    by_cases hs : s ∈ g.nodes
    · by_cases ht : t ∈ g.nodes
      · by_cases ha : g.toI.Adj s t
        · exact .inl (by rw [hg.wf.addEdge_dup hs ht ha])
        · exact .inr ((hg.wf.addEdge_new hs ht ha).2.adj hg.wf hs ht)
      · exact .inl (by rw [hg.wf.addEdge_missing_right hs ht])
    · exact .inl (by rw [hg.wf.addEdge_missing_left hs])
  have sub : ∀ u v, g.toI.Adj u v → (g.addEdge s t).1.toI.Adj u v := by
    intro u v h
    rcases key with e | e
    · rw [e]; exact h
    · exact (e u v).2 (.inl h)
  have sup : ∀ u v, (g.addEdge s t).1.toI.Adj u v → g.toI.Adj u v ∨ (u = s ∧ v = t) ∨ (u = t ∧ v = s) := by
    intro u v h
    rcases key with e | e
    · rw [e] at h; exact .inl h
    · exact (e u v).1 h
  refine ⟨C53_embedding _ _ lg.1 lh.1 lg.2 lh.2 id (fun _ _ _ _ e => e) (fun u v _ h => sub u v h) p p' hp hp' pf pf' q q' r r', ?_⟩
  obtain ⟨hq', -⟩ := r'.spec lh.1 lh.2 hp'
  have hM := hq'.isMatching HashOrder.id_valid
  have hlen := order_eq HashOrder.id_valid hq'.symmetric
  have h1 := matching_drop_one (g := g.toI) hM (s := s) (t := t)
  have h2 := r.bound lg.1 lg.2 hp _ (h1.1 (fun u v h hn => (sup u v h).resolve_right hn))
  omega

/-- **C53, one more node.**  `add_node` leaves the number of pairs found as it was. -/
theorem C53_add_node (g : DefaultGraph) (hg : g.Reachable) (id : Nat) (p p' : Pairing)
    (hp : p.Matches g.toI) (hp' : p'.Matches (g.addNode id).1.toI) (pf pf' : Platform) (q q' : Pairing)
    (r : MatchingReturns pf g.toI p q) (r' : MatchingReturns pf' (g.addNode id).1.toI p' q') : q.order = q'.order := by
  have lg := C38_default_graph g hg
  have lh := C38_default_graph _ (.addNode g id hg)
  have key : ∀ u v, (g.addNode id).1.toI.Adj u v ↔ g.toI.Adj u v := by
    by_cases hs : id ∈ g.nodes
    · rw [hg.wf.addNode_dup hs]; exact fun _ _ => Iff.rfl
    · exact (hg.wf.addNode_new hs).2.adj hg.wf hs
  exact le_antisymm
    (C53_embedding _ _ lg.1 lh.1 lg.2 lh.2 _root_.id (fun _ _ _ _ e => e) (fun u v _ h => (key u v).2 h) p p' hp hp' pf pf' q q' r r')
    (C53_embedding _ _ lh.1 lg.1 lh.2 lg.2 _root_.id (fun _ _ _ _ e => e) (fun u v _ h => (key u v).1 h) p' p hp' hp pf' pf q' q r' r)

/-- The path 0-1-2-3: from its middle edge and from the empty pairing the call returns, with two pairs both times; it is
bipartite, so `C52` applies to it too. -/
example : MatchingReturns (pf64 true) pathG.toI (pairingOf [(1, 2)]) (pairingOf [(3, 2), (1, 0)]) ∧
    (pairingOf [(1, 2)]).Matches pathG.toI ∧
    MatchingReturns (pf64 false) pathG.toI .new (pairingOf [(3, 2), (1, 0)]) ∧
    pathG.toI.simple.Colorable 2 ∧ pathG.toI.Loopless :=
  ⟨⟨fun _ _ => id, 14, fun _ _ => HashOrder.id_valid, by decide +kernel⟩, matches_of_test (by decide +kernel),
    ⟨fun _ _ => id, 14, fun _ _ => HashOrder.id_valid, by decide +kernel⟩, pathG_acyclic.isBipartite, pathG_loopless⟩

/-- One edge 0-1 and two loose nodes: one pair; with the edge 2-3 added, two pairs; so `C53_add_edge` is not always an
equality on either side. -/
example : MatchingReturns (pf64 true) (graphOf [(0, 1)]).toI .new (pairingOf [(0, 1)]) ∧
    MatchingReturns (pf64 true) (((((graphOf [(0, 1)]).addNode 2).1.addNode 3).1).addEdge 2 3).1.toI .new
      (pairingOf [(0, 1), (2, 3)]) :=
  ⟨⟨fun _ _ => id, 14, fun _ _ => HashOrder.id_valid, by decide +kernel⟩,
    ⟨fun _ _ => id, 14, fun _ _ => HashOrder.id_valid, by decide +kernel⟩⟩

end Gamma
