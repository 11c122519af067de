import Verif.Proofs.Greedy
import Verif.Proofs.Fuel
/-
Properties C27–C31: `components` and `greedy`.
-/
namespace Gamma
open Pairing

theorem Components.next_none {g : GraphI} {fuel : Nat} {c c' : Components}
    (h : Components.next g fuel c = .ok (none, c')) : Components.next g fuel c' = .ok (none, c') := by
  unfold Components.next at h
  split at h
  · rename_i rest hf
    obtain ⟨rfl, -⟩ := findRoot_none hf
    simp at h; subst h
    simp [Components.next, findRoot]
  · rw [Out.bind_eq_ok] at h
    obtain ⟨_, _, h⟩ := h
    rw [Out.bind_eq_ok] at h
    obtain ⟨_, _, h⟩ := h
    split at h
    · rw [Out.bind_eq_ok] at h
      obtain ⟨_, _, h⟩ := h
      simp at h
    · simp at h

/-- Evaluation within one budget determines the run. -/
theorem Components.run_of_all {g : GraphI} {N : Nat} {cs : List DefaultGraph}
    (h : Components.all g N = .ok cs) : Components.Run g cs := by
  refine ⟨N, fun fuel hf => ?_⟩
  have := (collect_components_le hf).eq h (by simp)
  obtain ⟨l', s', s'', e, t, he⟩ := trace_of_collect this
  simp at e; subst e
  exact endsAfter_of_trace' t he (Components.next_none he)

theorem greedyReturns_of {g : GraphI} {N : Nat} {p : Pairing} (h : greedy g N = .ok p) : GreedyReturns g p :=
  ⟨N, fun _ hf => (greedy_le hf).eq h (by simp)⟩

/-! ### C27 -/

/-- **C27.** On a graph where no node is listed twice as its own neighbor, `components` ends and never
panics, and what it yields is determined. -/
theorem C27_components_ends (g : GraphI) (hg : g.Lawful) (hl : g.NoDoubleLoop) :
    ∃! comps, Components.Run g comps := by
  obtain ⟨cs, h⟩ := Components.exists_run hg hl
  refine ⟨cs, h, ?_⟩
  rintro cs' ⟨N', h'⟩
  obtain ⟨N, h⟩ := h
  exact endsAfter_unique (h' (max N N') (by omega)) (h (max N N') (by omega))

/-- Collecting gives that list, with every large enough budget. -/
theorem C27_components_collect (g : GraphI) (hg : g.Lawful) (hl : g.NoDoubleLoop) :
    ∃ comps N, Components.Run g comps ∧ ∀ fuel, N ≤ fuel → Components.all g fuel = .ok comps := by
  obtain ⟨rc, N, c', c'', hr, h1⟩ := Components.run hg hl
  refine ⟨rc.map Prod.snd, N + rc.length + 1,
    ⟨N, fun fuel hf => endsAfter_of_trace' (h1 fuel hf).1 (h1 fuel hf).2.1 (h1 fuel hf).2.2⟩, fun fuel hf => ?_⟩
  exact collect_of_trace (h1 fuel (by omega)).1 (h1 fuel (by omega)).2.1 fuel (by simp; omega)

/-- With a self-loop added by `add_edge` (listed twice), `components` panics. -/
theorem C27_double_loop_panics :
    ∃ g : DefaultGraph, g.Reachable ∧ ∀ fuel, 5 ≤ fuel →
      Components.all g.toI fuel = .panic "traversal error" := by
  refine ⟨(((DefaultGraph.new.addNode 0).1.addEdge 0 0)).1, .addEdge _ _ _ (.addNode _ _ .new), ?_⟩
  intro fuel hf
  exact (collect_components_le hf).eq (by decide +kernel) (by simp)

/-- The components of the example graph. -/
def exComps : List DefaultGraph :=
  [⟨[(9, 3), (2, 2), (7, 1), (4, 0)], [[7, 2], [4, 2], [7, 4, 9], [2]], [4, 7, 2, 9],
      [(4, 7), (7, 2), (2, 4), (2, 9)]⟩,
    ⟨[(5, 0)], [[]], [5], []⟩]

theorem exG_components : Components.Run exG.toI exComps :=
  Components.run_of_all (N := 10) (by decide +kernel)

example : exG.toI.Lawful ∧ exG.toI.NoDoubleLoop ∧ Components.Run exG.toI exComps :=
  ⟨exG_lawful, exG_loopless.noDoubleLoop, exG_components⟩

/-! ### C28 -/

/-- **C28.** Every component is non-empty, its nodes and edges are nodes and edges of `g`, its own edges join
any two of its nodes; the components cover `g`; their first nodes are distinct and in `nodes()` order; and the
first node of each is the first in `nodes()` that is in no earlier component. -/
theorem C28_components_connected_cover (g : GraphI) (hg : g.Lawful)
    (comps : List DefaultGraph) (h : Components.Run g comps) :
    (∀ c ∈ comps, c.ReachableNoAdjLoop ∧ c.nodes ≠ [] ∧ (∀ v ∈ c.nodes, v ∈ g.nodes) ∧
      (∀ u v, c.toI.Adj u v → g.Adj u v) ∧
      (∀ u ∈ c.nodes, ∀ v ∈ c.nodes, c.toI.simple.Reachable u v)) ∧
    (∀ v ∈ g.nodes, ∃ c ∈ comps, v ∈ c.nodes) ∧
    (∃ roots : List Nat, comps.map (fun c => c.nodes.head?) = roots.map some ∧ roots.Sublist g.nodes ∧
      roots.Nodup) ∧
    comps.Pairwise (fun c c' => ∀ r, c'.nodes.head? = some r → r ∉ c.nodes) ∧
    (∀ l c l' r, comps = l ++ c :: l' → c.nodes.head? = some r → ∀ x, [x, r].Sublist g.nodes →
      ∃ c' ∈ l, x ∈ c'.nodes) := by
  obtain ⟨rc, hr, rfl⟩ := Components.run_iff hg.directed h
  refine ⟨?_, ?_, ?_, ?_, ?_⟩
  · intro c hc
    obtain ⟨e, he, rfl⟩ := List.mem_map.1 hc
    have := hr.comp e he
    refine ⟨this.built, List.ne_nil_of_mem this.root_mem, fun v hv => this.nodes hg hv,
      fun u v ha => this.adj hg ha, fun u hu v hv => ?_⟩
    exact (this.connected hg hu).symm.trans (this.connected hg hv)
  · intro v hv
    obtain ⟨e, he, hx⟩ := hr.cover v hv
    exact ⟨e.2, List.mem_map.2 ⟨e, he, rfl⟩, hx⟩
  · refine ⟨rc.map Prod.fst, ?_, hr.roots, hr.roots.nodup hg.nodes_nodup⟩
    rw [List.map_map, List.map_map]
    apply List.map_congr_left
    intro e he
    exact (hr.comp e he).head
  · rw [List.pairwise_map]
    refine List.Pairwise.imp_of_mem ?_ hr.fresh
    intro a b ha hb hne r hrr
    rw [(hr.comp b hb).head] at hrr
    simp at hrr; subst hrr; exact hne
  · intro l c l' r he hh x hx
    obtain ⟨l1, l2, rfl, rfl, h2⟩ := List.map_eq_append_iff.1 he
    obtain ⟨e, l3, rfl, rfl, rfl⟩ := List.map_eq_cons_iff.1 h2
    rw [(hr.comp e (by simp)).head] at hh
    simp at hh; subst hh
    obtain ⟨e', he', hx'⟩ := hr.earlier l1 e l3 rfl x hx
    exact ⟨e'.2, List.mem_map.2 ⟨e', he', rfl⟩, hx'⟩

example : exG.toI.Lawful ∧ Components.Run exG.toI exComps ∧
    exComps.map DefaultGraph.nodes = [[4, 7, 2, 9], [5]] :=
  ⟨exG_lawful, exG_components, by decide⟩

/-- **C28, exactly.**  Every component has a first node, and it is what a depth-first traversal of `g` from there gives:
the nodes in the order of their discovery, the edges in the order and direction of the steps, and the neighbors of each
node in the order of the steps. -/
theorem C28_components_exact (g : GraphI) (hg : g.Lawful) (comps : List DefaultGraph)
    (h : Components.Run g comps) (c : DefaultGraph) (hc : c ∈ comps) :
    ∃ r steps, c.nodes.head? = some r ∧ DepthFirst.Run g r steps ∧ c.nodes = discovered r steps ∧
      c.edges = steps.map (fun s => (s.sid, s.tid)) ∧
      ∀ v ∈ c.nodes, c.neighbors v = .ok (incident v (steps.map (fun s => (s.sid, s.tid)))) := by
  obtain ⟨rc, hr, rfl⟩ := Components.run_iff hg.directed h
  obtain ⟨e, he, rfl⟩ := List.mem_map.1 hc
  have hi := hr.comp e he
  obtain ⟨st, h1, h2, h3⟩ := hi.run
  refine ⟨e.1, st, hi.head, h1, h2, h3, fun v hv => ?_⟩
  rw [hi.ordered v hv, h3]
  rfl

/-- A case: the first component of the example graph, which has a cycle and two components. -/
example : exG.toI.Lawful ∧ Components.Run exG.toI exComps ∧ ∃ c ∈ exComps, c.nodes = [4, 7, 2, 9] ∧
    DepthFirst.Run exG.toI 4 exDfs ∧ c.edges = exDfs.map (fun s => (s.sid, s.tid)) ∧ discovered 4 exDfs = [4, 7, 2, 9] :=
  ⟨exG_lawful, exG_components, _, List.mem_cons_self, rfl, exG_dfs, by decide, by decide⟩

/-! ### C29

The full statement — for every lawful `g` on which `components` ends, two nodes are in a common component
exactly when they are connected, no node is in two components, and each component has all the edges between its
nodes — is false (`C29_overlap`), because the depth-first traversal can miss nodes.  Proved: it holds whenever
cycles are tame at the first node of each component (`Components.Tame`), in particular on acyclic graphs and on
graphs of maximum degree two. -/

/-- **C29 is false in general**: the components of a connected four-node graph are two, and overlap. -/
theorem C29_overlap :
    ∃ (g : DefaultGraph) (c c' : DefaultGraph), g.Reachable ∧ g.toI.Loopless ∧
      Components.Run g.toI [c, c'] ∧ c.nodes = [0, 1, 2] ∧ c'.nodes = [3, 0, 1, 2] ∧
      g.hasEdge 0 3 = .ok true := by
  refine ⟨missG, ⟨[(2, 2), (1, 1), (0, 0)], [[1, 2], [0, 2], [1, 0]], [0, 1, 2], [(0, 1), (1, 2), (2, 0)]⟩,
    ⟨[(2, 3), (1, 2), (0, 1), (3, 0)], [[0], [3, 1, 2], [0, 2], [1, 0]], [3, 0, 1, 2],
      [(3, 0), (0, 1), (1, 2), (2, 0)]⟩,
    missG_reachable, ?_, Components.run_of_all (N := 12) (by decide +kernel), rfl, rfl, by decide +kernel⟩
  intro v hv
  have h1 := (reachable_lawful _ missG_reachable).adj_src hv
  have h2 : missG.toI.nodes = [0, 1, 2, 3] := by decide +kernel
  rw [h2] at h1
  have key : ∀ v ∈ [0, 1, 2, 3], v ∉ missG.toI.nbr v := by decide +kernel
  exact key v h1 (GraphI.mem_nbr.2 hv)

theorem Components.areComponents {g : GraphI} (hg : g.Lawful)
    (ht : Components.Tame g) {comps : List DefaultGraph} (h : Components.Run g comps) :
    AreComponents g comps := by
  obtain ⟨rc, hr, rfl⟩ := Components.run_iff hg.directed h
  have hcomp : ∀ e ∈ rc, Components.CompleteAt g e.1 := fun e he =>
    Components.complete_tame hg (hr.tame hg ht e he)
  refine ⟨?_, ?_, ?_⟩
  · intro u v hu hv
    constructor
    · rintro ⟨c, hc, h1, h2⟩
      obtain ⟨e, he, rfl⟩ := List.mem_map.1 hc
      exact ((hr.comp e he).reachable hg h1).symm.trans ((hr.comp e he).reachable hg h2)
    · intro huv
      obtain ⟨e, he, hx⟩ := hr.cover u hu
      refine ⟨e.2, List.mem_map.2 ⟨e, he, rfl⟩, hx, ?_⟩
      rw [(hr.comp e he).mem_iff hg (hcomp e he)] at hx ⊢
      exact hx.trans huv
  · rw [List.pairwise_map]
    exact hr.disjoint hg hcomp
  · intro c hc u hu v hv hne
    obtain ⟨e, he, rfl⟩ := List.mem_map.1 hc
    exact (hr.comp e he).adj_iff hg (hcomp e he) hu hne

/-- **C29, acyclic graphs.**  Missing: graphs with cycles (false there in general). -/
theorem C29_components_acyclic_partial (g : GraphI) (hg : g.Lawful)
    (hac : g.simple.IsAcyclic) (comps : List DefaultGraph) (h : Components.Run g comps) :
    AreComponents g comps :=
  Components.areComponents hg (fun r _ _ => (C24_tame_classes_partial g r).1 hac) h

/-- **C29, graphs of maximum degree two** (disjoint paths and cycles).  Missing: graphs with a node of
degree three on a cycle (false there in general). -/
theorem C29_components_degree_two_partial (g : GraphI) (hg : g.Lawful)
    (hdeg : ∀ x, ¬ Deg3 g x) (comps : List DefaultGraph) (h : Components.Run g comps) :
    AreComponents g comps :=
  Components.areComponents hg (fun r _ _ => (C24_tame_classes_partial g r).2.1 hdeg) h

/-- **C29, where cycles are tame**: for example, nodes on cycles have at most three neighbors, and the first node (in
`nodes()` order) of each component is on no cycle, or has at most two neighbors, or is not a cut vertex.  Missing: the other
graphs (false there in general). -/
theorem C29_components_tame_partial (g : GraphI) (hg : g.Lawful)
    (ht : Components.Tame g) (comps : List DefaultGraph) (h : Components.Run g comps) :
    AreComponents g comps :=
  Components.areComponents hg ht h

/-- **C29, every graph, one component at a time.**  A component whose first node is tame has exactly the nodes
connected to it and all the edges between them, whatever the other components are. -/
theorem C29_component_tame_partial (g : GraphI) (hg : g.Lawful) (comps : List DefaultGraph)
    (h : Components.Run g comps) (c : DefaultGraph) (hc : c ∈ comps) (r : Nat) (hr : c.nodes.head? = some r)
    (ht : DepthFirst.Tame g r) :
    (∀ v, v ∈ c.nodes ↔ g.simple.Reachable r v) ∧
    (∀ u ∈ c.nodes, ∀ v, u ≠ v → (c.toI.Adj u v ↔ g.Adj u v)) := by
  obtain ⟨rc, hrc, rfl⟩ := Components.run_iff hg.directed h
  obtain ⟨e, he, rfl⟩ := List.mem_map.1 hc
  have hi := hrc.comp e he
  rw [hi.head] at hr
  simp at hr; subst hr
  have hcomp := Components.complete_tame hg ht
  exact ⟨fun v => hi.mem_iff hg hcomp, fun u hu v hne => hi.adj_iff hg hcomp hu hne⟩

theorem exG_tameFirst : Components.Tame exG.toI := by
  intro r hr hfirst
  have hn : exG.toI.nodes = [4, 7, 2, 9, 5] := by decide +kernel
  rw [hn] at hr hfirst
  have h4 : r = 4 ∨ r = 5 := by
    have adj : ∀ u v, (u, v) ∈ exG.toI.edges → u ≠ v → exG.toI.simple.Adj u v := fun u v he hne =>
      (exG_lawful.simple_adj).2 ⟨hne, exG_lawful.edges_adj _ _ he⟩
    have h47 : exG.toI.simple.Adj 4 7 := adj _ _ (by decide +kernel) (by decide)
    have h42 : exG.toI.simple.Adj 4 2 :=
      (exG_lawful.simple_adj).2 ⟨by decide, GraphI.mem_nbr.1 (by decide +kernel)⟩
    have h29 : exG.toI.simple.Adj 2 9 :=
      (exG_lawful.simple_adj).2 ⟨by decide, GraphI.mem_nbr.1 (by decide +kernel)⟩
    simp only [List.mem_cons, List.not_mem_nil, or_false] at hr
    rcases hr with rfl | rfl | rfl | rfl | rfl
    · exact .inl rfl
    · exact absurd h47.reachable (hfirst 4 (by decide))
    · exact absurd h42.reachable (hfirst 4 (by decide))
    · exact absurd (h42.reachable.trans h29.reachable) (hfirst 4 (by decide))
    · exact .inr rfl
  rcases h4 with rfl | rfl
  · exact exG_tame
  · refine (C24_tame_classes_partial exG.toI 5).2.2 (fun x => ?_) ?_
    · rintro ⟨a, b, c, d, h1, h2, h3, h4, h5, h6, ha, hb, hc, hd⟩
      have ha := exG_adj ha
      have hb := exG_adj hb
      have hc := exG_adj hc
      have hd := exG_adj hd
      simp only [List.mem_cons, Prod.mk.injEq, List.not_mem_nil, or_false] at ha hb hc hd
      omega
    · rintro ⟨a, b, c, h1, h2, h3, ha, hb, hc⟩
      have ha := exG_adj ha
      simp only [List.mem_cons, Prod.mk.injEq, List.not_mem_nil, or_false] at ha
      omega

example : exG.toI.Lawful ∧ Components.Tame exG.toI ∧ Components.Run exG.toI exComps :=
  ⟨exG_lawful, exG_tameFirst, exG_components⟩

theorem pathG_loopless : pathG.toI.Loopless := by
  intro v hv
  have h1 := pathG_lawful.adj_src hv
  have h2 : pathG.toI.nodes = [1, 0, 2, 3] := by decide +kernel
  rw [h2] at h1
  have key : ∀ v ∈ [1, 0, 2, 3], v ∉ pathG.toI.nbr v := by decide +kernel
  exact key v h1 (GraphI.mem_nbr.2 hv)

example : pathG.toI.Lawful ∧ pathG.toI.simple.IsAcyclic ∧
    (∀ x, ¬ Deg3 pathG.toI x) ∧ ∃ c, Components.Run pathG.toI [c] ∧ c.nodes = [1, 2, 3, 0] :=
  ⟨pathG_lawful, pathG_acyclic, pathG_deg2,
    ⟨[(0, 3), (3, 2), (2, 1), (1, 0)], [[2, 0], [1, 3], [2], [1]], [1, 2, 3, 0], [(1, 2), (2, 3), (1, 0)]⟩,
    Components.run_of_all (N := 10) (by decide +kernel), rfl⟩

/-! ### C30 -/

/-- **C30.** `greedy` returns (it does not panic and does not run for ever) a symmetric pairing whose pairs are
edges of `g`; in every hash iteration order its `edges()` form a matching of `g`. -/
theorem C30_greedy_matching (g : GraphI) (hg : g.Lawful) (hl : g.NoDoubleLoop) :
    ∃ p, GreedyReturns g p ∧ p.Matches g ∧ ∀ ord : HashOrder, ord.Valid → IsMatching g (p.edges ord) := by
  obtain ⟨rc, N, hr, h1⟩ := greedy_eq hg hl
  obtain ⟨s, e, i⟩ := foldComponents hg rc hr.comp (h1 N (le_refl N)).2 (greedyInv_new g)
  have hN : greedy g N = .ok s.2 := by rw [(h1 N (le_refl N)).1, e]; rfl
  refine ⟨s.2, greedyReturns_of hN, matches_of i.sym i.adj, fun ord ho => ⟨?_, edges_disjoint ho i.sym⟩⟩
  rintro ⟨a, b⟩ hm
  have := (mem_edges ho i.sym).1 hm
  exact ⟨i.sym.ne this.2, i.adj a b this.2⟩

theorem GreedyReturns.unique {g : GraphI} {p q : Pairing} (h : GreedyReturns g p) (h' : GreedyReturns g q) :
    p = q := by
  obtain ⟨N, h⟩ := h
  obtain ⟨M, h'⟩ := h'
  have := (h (max N M) (by omega)).symm.trans (h' (max N M) (by omega))
  injection this

/-- With a self-loop added by `add_edge`, `greedy` panics (in `components`). -/
theorem C30_double_loop_panics :
    ∃ g : DefaultGraph, g.Reachable ∧ ∀ fuel, 5 ≤ fuel → greedy g.toI fuel = .panic "traversal error" := by
  refine ⟨(((DefaultGraph.new.addNode 0).1.addEdge 0 0)).1, .addEdge _ _ _ (.addNode _ _ .new), ?_⟩
  intro fuel hf
  exact (greedy_le hf).eq (by decide +kernel) (by simp)

example : exG.toI.Lawful ∧ exG.toI.NoDoubleLoop ∧
    GreedyReturns exG.toI (Pairing.new.pair 4 7) :=
  ⟨exG_lawful, exG_loopless.noDoubleLoop, greedyReturns_of (N := 10) (by decide +kernel)⟩

/-! ### C31

The full statement — for every lawful loopless `g`, no edge joins two nodes that `greedy(g)` leaves unpaired — is
false (`C31_not_maximal`).  Proved: it holds where nodes on cycles have at most two neighbors (so on acyclic graphs
and on graphs of maximum degree two), and where cycles are tame an uncovered edge has an end on a cycle with at least
three neighbors. -/

/-- A triangle 0-1-2 with a tail 2-3, converted from an adjacency list. -/
def tailG : DefaultGraph :=
  ⟨[(3, 3), (2, 2), (1, 1), (0, 0)], [[1, 2], [0, 2], [1, 0, 3], [2]], [0, 1, 2, 3],
    [(0, 1), (0, 2), (1, 2), (2, 3)]⟩

theorem tailG_eq : DefaultGraph.tryFromAdjacency [[1, 2], [0, 2], [1, 0, 3], [2]] = .ok tailG := by
  decide +kernel

theorem tailG_reachable : tailG.Reachable := .fromAdjacency _ _ tailG_eq

/-- **C31 is false in general**: `greedy` pairs only 0-1 on that graph, although 2-3 is an edge. -/
theorem C31_not_maximal :
    ∃ (g : DefaultGraph) (p : Pairing) (u v : Nat), g.Reachable ∧ g.toI.Loopless ∧ GreedyReturns g.toI p ∧
      g.hasEdge u v = .ok true ∧ p.hasNode u = false ∧ p.hasNode v = false := by
  refine ⟨tailG, Pairing.new.pair 0 1, 2, 3, tailG_reachable, ?_, greedyReturns_of (N := 12) (by decide +kernel),
    by decide +kernel, by decide, by decide⟩
  intro v hv
  have h1 := (reachable_lawful _ tailG_reachable).adj_src hv
  have h2 : tailG.toI.nodes = [0, 1, 2, 3] := by decide +kernel
  rw [h2] at h1
  have key : ∀ v ∈ [0, 1, 2, 3], v ∉ tailG.toI.nbr v := by decide +kernel
  exact key v h1 (GraphI.mem_nbr.2 hv)

/-- **C31, where cycles are tame**: an edge that `greedy` leaves uncovered has an end that lies on a cycle and has at
least three neighbors.  Missing: the edges beside such nodes, and graphs whose cycles are not tame (false there in
general). -/
theorem C31_greedy_uncovered_beside_cycle_partial (g : GraphI) (hg : g.Lawful) (hl : g.Loopless)
    (ht : Components.Tame g) (p : Pairing) (hp : GreedyReturns g p) (u v : Nat) (ha : g.Adj u v)
    (hu : p.hasNode u = false) (hv : p.hasNode v = false) :
    (OnCycle g u ∧ Deg3 g u) ∨ (OnCycle g v ∧ Deg3 g v) := by
  obtain ⟨rc, N, hr, h1⟩ := greedy_eq hg hl.noDoubleLoop
  have htame := hr.tame hg ht
  have hcomp : ∀ e ∈ rc, Components.CompleteAt g e.1 := fun e he => Components.complete_tame hg (htame e he)
  obtain ⟨s, e, i, -, h2⟩ := foldComponents_tame hg hl rc hr.comp htame (hr.disjoint hg hcomp)
    (h1 N (le_refl N)).2 (greedyInv_new g) [] (by simp) (by simp)
  have hN : greedy g N = .ok s.2 := by rw [(h1 N (le_refl N)).1, e]; rfl
  rw [hp.unique (greedyReturns_of hN)] at hu hv
  obtain ⟨c, hc, huc⟩ := hr.cover u (hg.adj_src ha)
  have hne : u ≠ v := by rintro rfl; exact hl u ha
  rcases h2 c hc u v (((hr.comp c hc).adj_iff hg (hcomp c hc) huc hne).2 ha) with h3 | h3 | h3
  · rw [hu] at h3; simp at h3
  · rw [hv] at h3; simp at h3
  · exact h3

/-- **C31, graphs whose cycles stand alone**: if every node on a cycle has at most two neighbors, `greedy` leaves no
edge uncovered.  (Every component is then a tree or a cycle.)  Missing: the other graphs (false there in general). -/
theorem C31_greedy_maximal_lone_cycles_partial (g : GraphI) (hg : g.Lawful) (hl : g.Loopless)
    (hcyc : ∀ x, OnCycle g x → ¬ Deg3 g x) (p : Pairing) (hp : GreedyReturns g p) (u v : Nat) (ha : g.Adj u v) :
    p.hasNode u = true ∨ p.hasNode v = true := by
  have ht : Components.Tame g := by
    intro r _ _
    refine .of_degrees ?_ ?_
    · rintro x - - hx ⟨a, b, c, -, h1, h2, -, h3, -, -, h4, h5, h6, -⟩
      exact hcyc x hx ⟨a, b, c, h1, h2, h3, h4, h5, h6⟩
    · by_cases h : OnCycle g r
      · exact .inr (.inl (hcyc r h))
      · exact .inl h
  by_contra hc
  rw [not_or] at hc
  rcases C31_greedy_uncovered_beside_cycle_partial g hg hl ht p hp u v ha (by simpa using hc.1)
    (by simpa using hc.2) with h | h
  · exact hcyc _ h.1 h.2
  · exact hcyc _ h.1 h.2

/-- **C31, acyclic graphs.**  Missing: graphs with cycles (false there in general). -/
theorem C31_greedy_maximal_acyclic_partial (g : GraphI) (hg : g.Lawful) (hl : g.Loopless)
    (hac : g.simple.IsAcyclic) (p : Pairing) (hp : GreedyReturns g p) (u v : Nat) (ha : g.Adj u v) :
    p.hasNode u = true ∨ p.hasNode v = true :=
  C31_greedy_maximal_lone_cycles_partial g hg hl (fun _ ⟨c, hc⟩ => absurd hc (hac c)) p hp u v ha

/-- **C31, graphs of maximum degree two** (disjoint paths and cycles).  Missing: the other graphs (false there in
general). -/
theorem C31_greedy_maximal_degree_two_partial (g : GraphI) (hg : g.Lawful) (hl : g.Loopless)
    (hdeg : ∀ x, ¬ Deg3 g x) (p : Pairing) (hp : GreedyReturns g p) (u v : Nat) (ha : g.Adj u v) :
    p.hasNode u = true ∨ p.hasNode v = true :=
  C31_greedy_maximal_lone_cycles_partial g hg hl (fun x _ => hdeg x) p hp u v ha

example : pathG.toI.Lawful ∧ pathG.toI.Loopless ∧ pathG.toI.simple.IsAcyclic ∧
    GreedyReturns pathG.toI (Pairing.new.pair 1 2) ∧ pathG.hasEdge 2 3 = .ok true :=
  ⟨pathG_lawful, pathG_loopless, pathG_acyclic, greedyReturns_of (N := 10) (by decide +kernel),
    by decide +kernel⟩

/-- A triangle 1-2-0, for the examples: everything lies on a cycle, maximum degree two. -/
def triG : DefaultGraph :=
  [GraphOp.node 1, .node 2, .node 0, .edge 1 2, .edge 2 0, .edge 0 1].foldl DefaultGraph.perform .new

theorem triG_reachable : triG.Reachable := by
  unfold triG
  simp only [List.foldl, DefaultGraph.perform]
  repeat (first | exact .new | apply DefaultGraph.Reachable.addNode | apply DefaultGraph.Reachable.addEdge)

theorem triG_adj {u v : Nat} (h : triG.toI.Adj u v) : u ≠ v ∧ u < 3 ∧ v < 3 := by
  have hl := reachable_lawful _ triG_reachable
  have hu := hl.adj_src h
  have hn : triG.toI.nodes = [1, 2, 0] := by decide +kernel
  rw [hn] at hu
  have key : ∀ u ∈ [1, 2, 0], ∀ v ∈ triG.toI.nbr u, u ≠ v ∧ u < 3 ∧ v < 3 := by decide +kernel
  exact key u hu v (GraphI.mem_nbr.2 h)

example : triG.toI.Lawful ∧ triG.toI.Loopless ∧ (∀ x, ¬ Deg3 triG.toI x) ∧
    GreedyReturns triG.toI (Pairing.new.pair 1 2) ∧ triG.hasEdge 2 0 = .ok true ∧
    exG.toI.Lawful ∧ exG.toI.Loopless ∧ Components.Tame exG.toI ∧ GreedyReturns exG.toI (Pairing.new.pair 4 7) ∧
    exG.hasEdge 2 9 = .ok true := by
  have hl := reachable_lawful _ triG_reachable
  refine ⟨hl, fun v hv => (triG_adj hv).1 rfl, ?_, greedyReturns_of (N := 10) (by decide +kernel), by decide +kernel,
    exG_lawful, exG_loopless, exG_tameFirst, greedyReturns_of (N := 10) (by decide +kernel), by decide +kernel⟩
  rintro x ⟨a, b, c, h1, h2, h3, ha, hb, hc⟩
  have := triG_adj (hl.simple_adj.1 ha).2
  have := triG_adj (hl.simple_adj.1 hb).2
  have := triG_adj (hl.simple_adj.1 hc).2
  omega

/-! ### C50 -/

/-- **C50.** Where cycles are tame at the first node of each component: `components` yields the connected components,
a depth-first traversal from the first node of a component discovers the component and reports each of its edges exactly
once, and an edge `greedy` leaves uncovered has an end on a cycle with at least three neighbors. -/
theorem C50_exact_where_tame (g : GraphI) (hg : g.Lawful) (hl : g.Loopless) (ht : Components.Tame g) :
    (∃ comps, Components.Run g comps ∧ AreComponents g comps) ∧
    (∀ r ∈ g.nodes, (∀ x, [x, r].Sublist g.nodes → ¬ g.simple.Reachable x r) →
      ∀ steps, DepthFirst.Run g r steps → (∀ v, v ∈ discovered r steps ↔ g.simple.Reachable r v) ∧
        ∀ u v, g.simple.Reachable r u → g.Adj u v → joinCount u v steps = 1) ∧
    (∃ p, GreedyReturns g p ∧ p.Matches g ∧ ∀ u v, g.Adj u v → p.hasNode u = false → p.hasNode v = false →
      (OnCycle g u ∧ Deg3 g u) ∨ (OnCycle g v ∧ Deg3 g v)) := by
  refine ⟨?_, ?_, ?_⟩
  · obtain ⟨comps, h, -⟩ := C27_components_ends g hg hl.noDoubleLoop
    exact ⟨comps, h, C29_components_tame_partial g hg ht comps h⟩
  · intro r hr hfirst steps h
    have htr := ht r hr hfirst
    have hd := C24_dfs_discovers_tame_partial g hg r htr steps h
    refine ⟨hd, fun u v hu ha => ?_⟩
    have hne : u ≠ v := by rintro rfl; exact hl u ha
    have h1 := (C23_dfs_once g hg r steps h).1 u v hne
    have h2 := (Components.complete_tame hg htr).edges steps h u ((hd u).2 hu) v
      ((hd v).2 (hu.trans (SimpleGraph.Adj.reachable ((hg.simple_adj).2 ⟨hne, ha⟩)))) hne ha
    rw [DepthFirst.joinCount_eq_jc u v hne] at h1 ⊢
    have := DepthFirst.jc_pos h2
    omega
  · obtain ⟨p, h1, h2, -⟩ := C30_greedy_matching g hg hl.noDoubleLoop
    exact ⟨p, h1, h2, fun u v ha hu hv => C31_greedy_uncovered_beside_cycle_partial g hg hl ht p h1 u v ha hu hv⟩

example : exG.toI.Lawful ∧ exG.toI.Loopless ∧ Components.Tame exG.toI := ⟨exG_lawful, exG_loopless, exG_tameFirst⟩

end Gamma
