import Verif.Props.Greedy
import Verif.Proofs.Rename
/-
Properties C59–C60: only the order of nodes and neighbors matters, not the ids; and only what is connected to the root.
-/
namespace Gamma
open Pairing

/-! ### C59 -/

theorem maps_reachable {f : Nat → Nat} {g h : GraphI} (hg : g.Lawful) {root : Nat} (hroot : root ∈ g.nodes)
    (inj : ∀ u v, g.simple.Reachable root u → g.simple.Reachable root v → f u = f v → u = v)
    (hn : ∀ u l, g.simple.Reachable root u → g.neighbors u = .ok l → h.neighbors (f u) = .ok (l.map f)) :
    Maps f (g.simple.Reachable root) g h := by
  refine ⟨inj, fun u hu => ?_⟩
  have hm : u ∈ g.nodes := by
    by_cases e : root = u
    · exact e ▸ hroot
    · obtain ⟨w⟩ := hu.symm
      cases w with
      | nil => exact absurd rfl e
      | cons ha _ => exact hg.adj_src (hg.simple_adj.1 ha).2
  refine ⟨g.nbr u, hg.neighbors_eq hm, hn u _ hu (hg.neighbors_eq hm), fun x hx => ?_⟩
  by_cases e : u = x
  · exact e ▸ hu
  · exact hu.trans (SimpleGraph.Adj.reachable ((hg.simple_adj).2 ⟨e, GraphI.mem_nbr.1 hx⟩))

/-- **C59.** A traversal depends on the nodes connected to the root only, and on the order of their neighbors, not on their
ids: if another graph has a part that is the component of the root under other names, neighbors in the same order, then
the traversals there yield the same steps under the other names.  (Nothing else is asked of the other graph.) -/
theorem C59_traversals_renamed (f : Nat → Nat) (g h : GraphI) (hg : g.Lawful) (root : Nat)
    (inj : ∀ u v, g.simple.Reachable root u → g.simple.Reachable root v → f u = f v → u = v)
    (hn : ∀ u l, g.simple.Reachable root u → g.neighbors u = .ok l → h.neighbors (f u) = .ok (l.map f))
    (steps : List Step) :
    (BreadthFirst.Run g root steps → BreadthFirst.Run h (f root) (steps.map (Step.rename f))) ∧
    (DepthFirst.Run g root steps → DepthFirst.Run h (f root) (steps.map (Step.rename f))) :=
  ⟨fun hr => (maps_reachable hg (hr.inv hg).1 inj hn).bfs hg (.refl _) hr,
    fun hr => (maps_reachable hg (hr.inv hg).1 inj hn).dfs hg (.refl _) hr⟩

theorem Step.rename_id (s : Step) : Step.rename id s = s := rfl

/-- **C59, same ids.**  A graph that lists the same neighbors for the nodes connected to the root is traversed in the
same way. -/
theorem C59_traversals_local (g h : GraphI) (hg : g.Lawful) (root : Nat)
    (hn : ∀ u l, g.simple.Reachable root u → g.neighbors u = .ok l → h.neighbors u = .ok l) (steps : List Step) :
    (BreadthFirst.Run g root steps → BreadthFirst.Run h root steps) ∧
    (DepthFirst.Run g root steps → DepthFirst.Run h root steps) := by
  have := C59_traversals_renamed id g h hg root (fun u v _ _ e => e) (fun u l hu hl => by simpa using hn u l hu hl) steps
  rw [show (Step.rename id : Step → Step) = id from rfl, List.map_id] at this
  exact this

/-- **C59, `add_node` and `add_edge`.**  Adding a node, or an edge between nodes that are not connected to the root, or
trying to, changes no traversal. -/
theorem C59_traversals_unchanged (g : DefaultGraph) (hg : g.Reachable) (root : Nat) (steps : List Step) (id s t : Nat)
    (hs : ¬ g.toI.simple.Reachable root s) (ht : ¬ g.toI.simple.Reachable root t) :
    (BreadthFirst.Run g.toI root steps →
      BreadthFirst.Run (g.addNode id).1.toI root steps ∧ BreadthFirst.Run (g.addEdge s t).1.toI root steps) ∧
    (DepthFirst.Run g.toI root steps →
      DepthFirst.Run (g.addNode id).1.toI root steps ∧ DepthFirst.Run (g.addEdge s t).1.toI root steps) := by
  have hl := reachable_lawful _ hg
  have h1 : ∀ u l, g.toI.simple.Reachable root u → g.toI.neighbors u = .ok l →
      (g.addNode id).1.toI.neighbors u = .ok l := by
    intro u l _ e
    have hu : g.hasNode u = true := by
      by_contra hc
      have := ((C05_queries g hg).1 u (by simpa using hc)).1
      have e' : g.neighbors u = .ok l := e
      rw [this] at e'; simp at e'
    have hC := C01_add_node g hg id
    by_cases hi : g.hasNode id = true
    · rw [hC.1 hi]; exact e
    · have := (hC.2 (by simpa using hi)).2.2.2.2.1 u (by rintro rfl; exact hi hu)
      show (g.addNode id).1.neighbors u = _
      rw [this]; exact e
  have h2 : ∀ u l, g.toI.simple.Reachable root u → g.toI.neighbors u = .ok l →
      (g.addEdge s t).1.toI.neighbors u = .ok l := by
    intro u l hu e
    have hus : u ≠ s := by rintro rfl; exact hs hu
    have hut : u ≠ t := by rintro rfl; exact ht hu
    have hC := C02_add_edge g hg s t
    by_cases c1 : g.hasNode s = true
    · by_cases c2 : g.hasNode t = true
      · by_cases c3 : g.hasEdge s t = .ok true
        · rw [hC.2.2.1 c1 c2 c3]; exact e
        · have := (hC.2.2.2 c1 c2 c3).2.2.2.2.2 u hus hut
          show (g.addEdge s t).1.neighbors u = _
          rw [this]; exact e
      · rw [hC.2.1 c1 (by simpa using c2)]; exact e
    · rw [hC.1 (by simpa using c1)]; exact e
  have a := C59_traversals_local g.toI (g.addNode id).1.toI hl root h1 steps
  have b := C59_traversals_local g.toI (g.addEdge s t).1.toI hl root h2 steps
  exact ⟨fun h => ⟨a.1 h, b.1 h⟩, fun h => ⟨a.2 h, b.2 h⟩⟩

/-- The example graph under other names (4, 7, 2, 9, 5 become 3, 0, 8, 1, 6), for the examples. -/
def exG' : DefaultGraph :=
  [GraphOp.node 3, .node 0, .node 8, .node 1, .node 6, .edge 3 0, .edge 0 8, .edge 8 3, .edge 1 8].foldl
    DefaultGraph.perform .new

/-- The new names. -/
def exF (x : Nat) : Nat := if x = 4 then 3 else if x = 7 then 0 else if x = 2 then 8 else if x = 9 then 1 else 6

theorem exG'_reachable : exG'.Reachable := by
  unfold exG'
  simp only [List.foldl, DefaultGraph.perform]
  repeat (first | exact .new | apply DefaultGraph.Reachable.addNode | apply DefaultGraph.Reachable.addEdge)

theorem exG_renamed : GraphI.Renamed exF exG.toI exG'.toI := by
  have hn : exG.toI.nodes = [4, 7, 2, 9, 5] := by decide +kernel
  refine ⟨?_, by decide +kernel, ?_⟩
  · rw [hn]; decide
  · intro v hv l hl
    have key : ∀ v ∈ exG.toI.nodes, exG'.toI.neighbors (exF v) = .ok ((exG.toI.nbr v).map exF) := by decide +kernel
    rw [key v hv, GraphI.nbr_of_ok hl]

/-- The hypotheses of C59 hold between the example graph and its renaming, and of the last clause for the isolated node
5 and a new node 6. -/
example : exG.toI.Lawful ∧
    (∀ u v, exG.toI.simple.Reachable 4 u → exG.toI.simple.Reachable 4 v → exF u = exF v → u = v) ∧
    (∀ u l, exG.toI.simple.Reachable 4 u → exG.toI.neighbors u = .ok l → exG'.toI.neighbors (exF u) = .ok (l.map exF)) ∧
    BreadthFirst.Run exG.toI 4 exBfs ∧ DepthFirst.Run exG.toI 4 exDfs ∧
    exBfs.map (Step.rename exF) = [⟨3, 0, false⟩, ⟨3, 8, false⟩, ⟨0, 8, true⟩, ⟨8, 1, false⟩] ∧
    ¬ exG.toI.simple.Reachable 4 5 ∧ exG.hasNode 5 = true := by
  have hmem : ∀ u, exG.toI.simple.Reachable 4 u → u ∈ exG.toI.nodes ∧ u ≠ 5 := by
    intro u hu
    have := ((C16_bfs_discovers exG.toI exG_lawful 4 exBfs exG_bfs).2 u).2 hu
    have hn : exG.toI.nodes = [4, 7, 2, 9, 5] := by decide +kernel
    rw [hn]
    simp [discovered, exBfs] at this
    rcases this with rfl | rfl | rfl | rfl <;> simp
  refine ⟨exG_lawful, fun u v hu hv => exG_renamed.inj u (hmem u hu).1 v (hmem v hv).1,
    fun u l hu => exG_renamed.neighbors u (hmem u hu).1 l, exG_bfs, exG_dfs, by decide, fun hc => (hmem 5 hc).2 rfl,
    by decide +kernel⟩

/-! ### C60 -/

/-- **C60, components.**  Renaming the nodes renames the components, and changes nothing else: not their number or
order, not the order of their nodes, neighbors and edges, nor the direction of edges. -/
theorem C60_components_renamed (f : Nat → Nat) (g h : GraphI) (hg : g.Lawful) (hh : h.Lawful)
    (hr : GraphI.Renamed f g h) (comps comps' : List DefaultGraph) (hc : Components.Run g comps)
    (hc' : Components.Run h comps') : List.Forall₂ (SameComp f) comps comps' := by
  obtain ⟨rc, r1, rfl⟩ := Components.run_iff hg.directed hc
  obtain ⟨rc', r2, rfl⟩ := Components.run_iff hh.directed hc'
  have := r1.rename hg hr r2
  rw [List.forall₂_map_left_iff, List.forall₂_map_right_iff]
  exact this.imp (fun _ _ h => h.2)

/-- **C60, greedy.**  Renaming the nodes renames the pairs `greedy` finds, and changes nothing else. -/
theorem C60_greedy_renamed (f : Nat → Nat) (g h : GraphI) (hg : g.Lawful) (hh : h.Lawful)
    (hr : GraphI.Renamed f g h) (p q : Pairing) (hp : GreedyReturns g p) (hq : GreedyReturns h q) :
    ∀ x' y', q.mate x' = .ok y' ↔ ∃ x ∈ g.nodes, ∃ y ∈ g.nodes, x' = f x ∧ y' = f y ∧ p.mate x = .ok y := by
  obtain ⟨p1, q1, N, h1, m1, m2, hget⟩ := greedy_rename hg hh hp hq hr
  have e1 := hp.unique (greedyReturns_of (h1 N (le_refl N)).1)
  have e2 := hq.unique (greedyReturns_of (h1 N (le_refl N)).2)
  subst e1 e2
  intro x' y'
  constructor
  · intro hm
    have ha := m2.adj x' y' hm
    have hx' := hh.adj_src ha
    rw [hr.nodes] at hx'
    obtain ⟨x, hx, rfl⟩ := List.mem_map.1 hx'
    have := mate_eq_ok.1 hm
    rw [hget x hx] at this
    obtain ⟨y, hy, rfl⟩ := Option.map_eq_some_iff.1 this
    have hm' := mate_of_some hy
    exact ⟨x, hx, y, hg.adj_mem _ _ (m1.adj x y hm'), rfl, rfl, hm'⟩
  · rintro ⟨x, hx, y, hy, rfl, rfl, hm⟩
    apply mate_of_some
    rw [hget x hx, mate_eq_ok.1 hm]; rfl

/-- The hypotheses of C60 hold between the example graph and its renaming. -/
example : exG.toI.Lawful ∧ exG'.toI.Lawful ∧ GraphI.Renamed exF exG.toI exG'.toI ∧
    Components.Run exG.toI exComps ∧ (∃ c c', Components.Run exG'.toI [c, c'] ∧ c.nodes = [3, 0, 8, 1] ∧ c'.nodes = [6]) ∧
    GreedyReturns exG.toI (Pairing.new.pair 4 7) ∧ GreedyReturns exG'.toI (Pairing.new.pair 3 0) :=
  ⟨exG_lawful, reachable_lawful _ exG'_reachable, exG_renamed, exG_components,
    ⟨⟨[(1, 3), (8, 2), (0, 1), (3, 0)], [[0, 8], [3, 8], [0, 3, 1], [8]], [3, 0, 8, 1],
      [(3, 0), (0, 8), (8, 3), (8, 1)]⟩, ⟨[(6, 0)], [[]], [6], []⟩,
      Components.run_of_all (N := 10) (by decide +kernel), rfl, rfl⟩,
    greedyReturns_of (N := 10) (by decide +kernel), greedyReturns_of (N := 10) (by decide +kernel)⟩

end Gamma
