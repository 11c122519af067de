import Verif.Props.Graph
import Verif.Proofs.DfsTame
/-
Properties C14–C26, C47 and C48: `BreadthFirst` and `DepthFirst`.

`g` is any graph that obeys the `Graph` contract (`GraphI.Lawful`); `reachable_lawful` (Props/Graph.lean)
says that every `DefaultGraph` a program can build does.  `BreadthFirst.Run g root steps` says: `new` is
`Ok`, and the iterator yields exactly `steps`, then `None` for ever, and never panics.
-/
namespace Gamma

theorem exG_lawful : exG.toI.Lawful := reachable_lawful exG exG_reachable

/-- The breadth-first steps of the example graph from node 4. -/
def exBfs : List Step := [⟨4, 7, false⟩, ⟨4, 2, false⟩, ⟨7, 2, true⟩, ⟨2, 9, false⟩]

theorem exG_bfs : BreadthFirst.Run exG.toI 4 exBfs :=
  BreadthFirst.run_of_collect (fuel := 10) (by decide +kernel)

/-- The depth-first steps of the example graph from node 4. -/
def exDfs : List Step := [⟨4, 7, false⟩, ⟨7, 2, false⟩, ⟨2, 4, true⟩, ⟨2, 9, false⟩]

theorem exG_dfs : DepthFirst.Run exG.toI 4 exDfs :=
  DepthFirst.run_of_collect (fuel := 10) (by decide +kernel)

/-! ### C14 -/

/-- **C14.** A traversal is refused exactly for a missing root, with `MissingNode(root)`. -/
theorem C14_new (g : GraphI) (hg : g.Lawful) (root : Nat) :
    (root ∈ g.nodes → (∃ b, BreadthFirst.new g root = .ok b) ∧ (∃ d, DepthFirst.new g root = .ok d)) ∧
    (root ∉ g.nodes → BreadthFirst.new g root = .err (.missingNode root) ∧
      DepthFirst.new g root = .err (.missingNode root)) := by
  constructor
  · intro h; exact ⟨⟨_, BreadthFirst.new_eq hg h⟩, ⟨_, DepthFirst.new_eq hg h⟩⟩
  · intro h
    simp [BreadthFirst.new, DepthFirst.new, hg.neighbors_err root h]

example : exG.toI.Lawful ∧ 4 ∈ exG.toI.nodes ∧ 3 ∉ exG.toI.nodes :=
  ⟨exG_lawful, by decide +kernel, by decide +kernel⟩

/-! ### C15 -/

/-- **C15.** A breadth-first traversal ends and never panics, and what it yields is determined. -/
theorem C15_bfs_ends (g : GraphI) (hg : g.Lawful) (root : Nat) (hr : root ∈ g.nodes) :
    ∃! steps, BreadthFirst.Run g root steps := by
  obtain ⟨steps, h⟩ := BreadthFirst.run_run hg hr
  refine ⟨steps, h, ?_⟩
  rintro st ⟨b, e, h'⟩
  obtain ⟨b', e', h''⟩ := h
  rw [e] at e'; injection e' with e'; subst e'
  exact endsAfter_unique h' h''

/-- Collecting the steps gives the same list, whatever the budget (if it is large enough). -/
theorem C15_bfs_collect (g : GraphI) (hg : g.Lawful) (root : Nat) (hr : root ∈ g.nodes) :
    ∃ b steps, BreadthFirst.new g root = .ok b ∧ BreadthFirst.Run g root steps ∧
      ∀ fuel, steps.length < fuel → collect (BreadthFirst.next g) fuel b = .ok steps := by
  obtain ⟨b, l, b', e, t, he, -⟩ := BreadthFirst.run hg hr
  exact ⟨b, l, e, ⟨b, e, endsAfter_of_trace t he⟩, fun fuel hf => collect_of_trace t he fuel hf⟩

example : exG.toI.Lawful ∧ 4 ∈ exG.toI.nodes ∧ BreadthFirst.Run exG.toI 4 exBfs :=
  ⟨exG_lawful, by decide +kernel, exG_bfs⟩

/-! ### C16 -/

/-- **C16.** The root and the targets of the non-cut steps are pairwise distinct, and are exactly the nodes
connected to the root. -/
theorem C16_bfs_discovers (g : GraphI) (hg : g.Lawful) (root : Nat) (steps : List Step)
    (h : BreadthFirst.Run g root steps) :
    (discovered root steps).Nodup ∧ ∀ v, v ∈ discovered root steps ↔ g.simple.Reachable root v := by
  obtain ⟨hr, b, i, q⟩ := h.inv hg
  refine ⟨i.truth.nodup, fun v => ⟨i.truth.reachable hg (fun s hs => i.step_adj hs) v, ?_⟩⟩
  intro hv
  exact closed_reachable hg (by simp [discovered]) (fun u v hu ha => i.closed q u v hu ha) hv

example : exG.toI.Lawful ∧ BreadthFirst.Run exG.toI 4 exBfs ∧ discovered 4 exBfs = [4, 7, 2, 9] :=
  ⟨exG_lawful, exG_bfs, by decide⟩

/-! ### C17 -/

/-- **C17.** Distances: a discovery step goes one further, distances never decrease along the
traversal, and the discovery steps lead from the root to every discovered node along a shortest path. -/
theorem C17_bfs_distance (g : GraphI) (hg : g.Lawful) (root : Nat) (steps : List Step)
    (h : BreadthFirst.Run g root steps) :
    (∀ s ∈ steps, s.cut = false → g.simple.dist root s.tid = g.simple.dist root s.sid + 1) ∧
    (discovered root steps).Pairwise (fun x y => g.simple.dist root x ≤ g.simple.dist root y) ∧
    (∀ v, g.simple.Reachable root v → ∃ path : List Nat,
      path.head? = some root ∧ path.getLast? = some v ∧
      path.IsChain (fun a b => ∃ s ∈ steps, s.cut = false ∧ s.sid = a ∧ s.tid = b)) ∧
    (∀ (path : List Nat) v, path.head? = some root → path.getLast? = some v →
      path.IsChain (fun a b => ∃ s ∈ steps, s.cut = false ∧ s.sid = a ∧ s.tid = b) →
      path.length = g.simple.dist root v + 1) := by
  have hd := C16_bfs_discovers g hg root steps h
  obtain ⟨hr, b, i, q⟩ := h.inv hg
  obtain ⟨h1, h2⟩ := i.level_eq_dist hg q
  refine ⟨h1, h2, fun v hv => i.truth.tree_path v ((hd.2 v).2 hv), ?_⟩
  intro path
  induction path using List.reverseRecOn with
  | nil => intro v h; simp at h
  | append_singleton l x ih =>
    intro v hh hl hc
    simp at hl; subst hl
    rcases List.eq_nil_or_concat l with rfl | ⟨l', y, rfl⟩
    · simp at hh; subst hh; simp
    · rw [List.concat_eq_append] at *
      rw [List.isChain_append] at hc
      have := ih y (by rw [List.head?_append] at hh; cases hq : (l' ++ [y]).head? with
        | none => simp at hq
        | some z => rw [hq] at hh; simpa using hh) (by simp) hc.1
      obtain ⟨s, hs, hcut, e1, e2⟩ := hc.2.2 y (by simp) x (by simp)
      have := h1 s hs hcut
      rw [e1, e2] at this
      rw [this]
      simp at *
      omega

example : exG.toI.Lawful ∧ BreadthFirst.Run exG.toI 4 exBfs ∧ (⟨2, 9, false⟩ : Step) ∈ exBfs :=
  ⟨exG_lawful, exG_bfs, by decide⟩

/-! ### C18 -/

/-- **C18.** Every step joins adjacent nodes, and every edge of the component between distinct nodes is
joined by exactly one step, in one direction. -/
theorem C18_bfs_edges (g : GraphI) (hg : g.Lawful) (root : Nat) (steps : List Step)
    (h : BreadthFirst.Run g root steps) :
    (∀ s ∈ steps, g.simple.Reachable root s.sid ∧ g.Adj s.sid s.tid) ∧
    (∀ u v, g.simple.Reachable root u → u ≠ v → g.Adj u v → joinCount u v steps = 1) := by
  have hd := C16_bfs_discovers g hg root steps h
  obtain ⟨hr, b, i, q⟩ := h.inv hg
  exact ⟨fun s hs => ⟨(hd.2 _).1 (i.truth.sid_mem hs), i.step_adj hs⟩,
    fun u v hu hne ha => i.joinCount hg q ((hd.2 u).2 hu) hne ha⟩

/-- Consequently a graph without self-loops yields at most `size()` steps. -/
theorem C18_bfs_at_most_size (g : GraphI) (hg : g.Lawful) (hl : g.Loopless) (root : Nat) (steps : List Step)
    (h : BreadthFirst.Run g root steps) : steps.length ≤ g.size := by
  obtain ⟨h1, h2⟩ := C18_bfs_edges g hg root steps h
  have hd := C16_bfs_discovers g hg root steps h
  refine length_le_size hg hl (fun s hs => (h1 s hs).2) ?_
  intro u v hne
  by_cases ha : g.Adj u v
  · by_cases hu : g.simple.Reachable root u
    · rw [h2 u v hu hne ha]
    · have : joinCount u v steps = 0 := by
        unfold joinCount
        rw [List.countP_eq_zero]
        intro s hs
        have hr := (h1 s hs)
        have h3 : g.simple.Reachable root s.tid := by
          by_cases e : s.sid = s.tid
          · rw [← e]; exact hr.1
          · exact hr.1.trans (SimpleGraph.Adj.reachable ((hg.simple_adj).2 ⟨e, hr.2⟩))
        simp only [decide_eq_true_eq]
        rintro (⟨rfl, rfl⟩ | ⟨rfl, rfl⟩)
        · exact hu hr.1
        · exact hu h3
      omega
  · have : joinCount u v steps = 0 := by
      unfold joinCount
      rw [List.countP_eq_zero]
      intro s hs
      simp only [decide_eq_true_eq]
      rintro (⟨rfl, rfl⟩ | ⟨rfl, rfl⟩)
      · exact ha (h1 s hs).2
      · exact ha (hg.adj_symm _ _ (h1 s hs).2)
    omega

theorem exG_loopless : exG.toI.Loopless := by
  rintro v ⟨l, hl, hm⟩
  have hv : v ∈ exG.toI.nodes := exG_lawful.adj_src ⟨l, hl, hm⟩
  have h5 : exG.toI.nodes = [4, 7, 2, 9, 5] := by decide +kernel
  rw [h5] at hv
  have key : ∀ v ∈ [4, 7, 2, 9, 5], v ∉ exG.toI.nbr v := by decide +kernel
  exact key v hv (GraphI.mem_nbr.2 ⟨l, hl, hm⟩)

example : exG.toI.Lawful ∧ exG.toI.Loopless ∧ BreadthFirst.Run exG.toI 4 exBfs ∧ joinCount 7 2 exBfs = 1 :=
  ⟨exG_lawful, exG_loopless, exG_bfs, by decide⟩

/-! ### C19 -/

/-- **C19.** The steps are grouped by source in discovery order; for the `i`-th discovered node `v` the targets
are, in neighbor order, the neighbors of `v` other than the first `i` discovered nodes. -/
theorem C19_bfs_order (g : GraphI) (hg : g.Lawful) (root : Nat) (steps : List Step)
    (h : BreadthFirst.Run g root steps) :
    steps.map (fun s => (s.sid, s.tid)) =
      ((discovered root steps).mapIdx (fun i v =>
        ((g.nbr v).filter (fun w => !((discovered root steps).take i).contains w)).map
          (fun w => (v, w)))).flatten := by
  obtain ⟨hr, b, i, q⟩ := h.inv hg
  have := i.pairs q
  rw [i.nodes, BreadthFirst.queued_reverse] at this
  exact this

example : exG.toI.Lawful ∧ BreadthFirst.Run exG.toI 4 exBfs ∧ exG.toI.nbr 2 = [7, 4, 9] :=
  ⟨exG_lawful, exG_bfs, by decide +kernel⟩

/-! ### C20 -/

/-- **C20.** At every point of the traversal the source of the next step is already discovered, and `cut`
tells whether its target is. -/
theorem C20_bfs_flags (g : GraphI) (hg : g.Lawful) (root : Nat) (steps : List Step)
    (h : BreadthFirst.Run g root steps) (pre : List Step) (s : Step) (post : List Step)
    (he : steps = pre ++ s :: post) :
    s.sid ∈ discovered root pre ∧ (s.cut = true ↔ s.tid ∈ discovered root pre) := by
  obtain ⟨hr, b, i, q⟩ := h.inv hg
  exact i.truth pre s post he

example : exG.toI.Lawful ∧ BreadthFirst.Run exG.toI 4 exBfs ∧
    exBfs = [⟨4, 7, false⟩, ⟨4, 2, false⟩] ++ (⟨7, 2, true⟩ : Step) :: [⟨2, 9, false⟩] :=
  ⟨exG_lawful, exG_bfs, by decide⟩

/-! ### C21 -/

/-- **C21.** A depth-first traversal ends and never panics, and what it yields is determined. -/
theorem C21_dfs_ends (g : GraphI) (hg : g.Lawful) (root : Nat) (hr : root ∈ g.nodes) :
    ∃! steps, DepthFirst.Run g root steps := by
  obtain ⟨steps, h⟩ := DepthFirst.run_run hg hr
  refine ⟨steps, h, ?_⟩
  rintro st ⟨b, e, h'⟩
  obtain ⟨b', e', h''⟩ := h
  rw [e] at e'; injection e' with e'; subst e'
  exact endsAfter_unique h' h''

/-- Collecting the steps gives the same list, whatever the budget (if it is large enough). -/
theorem C21_dfs_collect (g : GraphI) (hg : g.Lawful) (root : Nat) (hr : root ∈ g.nodes) :
    ∃ d steps, DepthFirst.new g root = .ok d ∧ DepthFirst.Run g root steps ∧
      ∀ fuel, steps.length < fuel → collect (DepthFirst.next g) fuel d = .ok steps := by
  obtain ⟨b, l, b', e, t, he, -⟩ := DepthFirst.run hg hr
  exact ⟨b, l, e, ⟨b, e, endsAfter_of_trace t he⟩, fun fuel hf => collect_of_trace t he fuel hf⟩

example : exG.toI.Lawful ∧ 4 ∈ exG.toI.nodes ∧ DepthFirst.Run exG.toI 4 exDfs :=
  ⟨exG_lawful, by decide +kernel, exG_dfs⟩

/-! ### C22 -/

/-- **C22.** At every point of the traversal the next step joins adjacent nodes, its source is already
discovered and `cut` tells whether its target is; the discovered nodes are distinct and connected to the
root. -/
theorem C22_dfs_sound (g : GraphI) (hg : g.Lawful) (root : Nat) (steps : List Step)
    (h : DepthFirst.Run g root steps) :
    (∀ pre s post, steps = pre ++ s :: post →
      g.Adj s.sid s.tid ∧ s.sid ∈ discovered root pre ∧ (s.cut = true ↔ s.tid ∈ discovered root pre)) ∧
    (discovered root steps).Nodup ∧
    (∀ v ∈ discovered root steps, g.simple.Reachable root v) := by
  obtain ⟨hr, d, d', -, -, -, i, q⟩ := h.inv hg
  exact ⟨fun pre s post e => ⟨i.step_adj s (by rw [e]; simp), i.truth pre s post e⟩, i.truth.nodup,
    i.truth.reachable hg i.step_adj⟩

example : exG.toI.Lawful ∧ DepthFirst.Run exG.toI 4 exDfs ∧ discovered 4 exDfs = [4, 7, 2, 9] :=
  ⟨exG_lawful, exG_dfs, by decide⟩

/-! ### C23 -/

/-- **C23.** At most one step joins two given distinct nodes, in either direction; a self-loop listed once is
reported at most once. -/
theorem C23_dfs_once (g : GraphI) (hg : g.Lawful) (root : Nat) (steps : List Step)
    (h : DepthFirst.Run g root steps) :
    (∀ u v, u ≠ v → joinCount u v steps ≤ 1) ∧
    (∀ v, (g.nbr v).count v ≤ 1 → joinCount v v steps ≤ 1) := by
  obtain ⟨hr, d, d', -, -, -, i, q⟩ := h.inv hg
  constructor
  · intro u v hne
    rw [DepthFirst.joinCount_eq_jc u v hne]
    have := i.once u v hne
    omega
  · intro v hv
    have := i.onceLoop v hv
    have e : joinCount v v steps = (steps.map Step.pair).count (v, v) := by
      unfold joinCount List.count
      rw [List.countP_map]
      apply List.countP_congr
      intro s _
      simp [Step.pair]
    omega

/-- Consequently a graph without self-loops yields at most `size()` steps. -/
theorem C23_dfs_at_most_size (g : GraphI) (hg : g.Lawful) (hl : g.Loopless) (root : Nat) (steps : List Step)
    (h : DepthFirst.Run g root steps) : steps.length ≤ g.size := by
  have h1 := (C23_dfs_once g hg root steps h).1
  obtain ⟨hr, d, d', -, -, -, i, q⟩ := h.inv hg
  exact length_le_size hg hl i.step_adj h1

example : exG.toI.Lawful ∧ exG.toI.Loopless ∧ DepthFirst.Run exG.toI 4 exDfs ∧ exG.toI.size = 4 :=
  ⟨exG_lawful, exG_loopless, exG_dfs, by decide +kernel⟩

/-! ### C24

The full statement,
`∀ g, g.Lawful → ∀ root steps, DepthFirst.Run g root steps →
   ∀ v, v ∈ discovered root steps ↔ g.simple.Reachable root v`,
is false (`C24_incomplete`).  Proved: it holds on acyclic graphs, on graphs of maximum degree two and, more
generally, where nodes on cycles have at most three neighbors, or cycles share no nodes and are entered at a node with at most
three neighbors, and the root meets a similar condition (`DepthFirst.Tame`); in every graph a neighbor is missed only next to a
node on a cycle with at least four neighbors (three for the root); and an exact criterion for a node to be missed. -/

/-- The graph on 0, 1, 2, 3 with edges 0-1, 0-2, 0-3, 1-2. -/
def missG : DefaultGraph :=
  [GraphOp.node 0, .node 1, .node 2, .node 3, .edge 0 1, .edge 0 2, .edge 0 3, .edge 1 2].foldl
    DefaultGraph.perform .new

theorem missG_reachable : missG.Reachable := by
  unfold missG
  simp only [List.foldl, DefaultGraph.perform]
  repeat (first | exact .new | apply DefaultGraph.Reachable.addNode | apply DefaultGraph.Reachable.addEdge)

theorem missG_dfs : DepthFirst.Run missG.toI 0 [⟨0, 1, false⟩, ⟨1, 2, false⟩, ⟨2, 0, true⟩] :=
  DepthFirst.run_of_collect (fuel := 10) (by decide +kernel)

/-- **C24 is false in general**: on a graph a program can build, a depth-first traversal from 0 never
reports 3, a neighbor of 0. -/
theorem C24_incomplete :
    ∃ (g : DefaultGraph) (root v : Nat) (steps : List Step), g.Reachable ∧
      DepthFirst.Run g.toI root steps ∧ g.hasEdge root v = .ok true ∧ g.toI.simple.Reachable root v ∧
      v ∉ discovered root steps := by
  refine ⟨missG, 0, 3, _, missG_reachable, missG_dfs, by decide +kernel, ?_, by decide⟩
  apply SimpleGraph.Adj.reachable
  rw [(reachable_lawful _ missG_reachable).simple_adj]
  exact ⟨by decide, GraphI.mem_nbr.1 (by decide +kernel)⟩

/-- **C24, acyclic graphs.**  Missing: graphs with cycles (false there in general). -/
theorem C24_dfs_discovers_acyclic_partial (g : GraphI) (hg : g.Lawful) (hac : g.simple.IsAcyclic)
    (root : Nat) (steps : List Step) (h : DepthFirst.Run g root steps) (v : Nat) :
    v ∈ discovered root steps ↔ g.simple.Reachable root v := by
  obtain ⟨hr, d, d', -, -, -, i, q⟩ := h.inv hg
  refine ⟨i.truth.reachable hg i.step_adj v, ?_⟩
  exact closed_reachable hg (by simp [discovered]) (fun u v hu ha => i.acyclic_closed hg q hac u v hu ha)

/-- **C24, graphs of maximum degree two** (paths and cycles).  Missing: graphs with a node of degree
three on a cycle (false there in general). -/
theorem C24_dfs_discovers_degree_two_partial (g : GraphI) (hg : g.Lawful) (hdeg : ∀ x, ¬ Deg3 g x)
    (root : Nat) (steps : List Step) (h : DepthFirst.Run g root steps) (v : Nat) :
    v ∈ discovered root steps ↔ g.simple.Reachable root v := by
  obtain ⟨hr, d, d', -, -, -, i, q⟩ := h.inv hg
  refine ⟨i.truth.reachable hg i.step_adj v, ?_⟩
  exact closed_reachable hg (by simp [discovered]) (fun u v hu ha => i.deg2_closed hg q hdeg u v hu ha)

/-- **C24, every graph.**  A neighbor `v` of a discovered node `u` is missed only if `u` is also joined, by
an edge that is not a discovery step, to another discovered node; so if no neighbor-of-discovered is of
this kind, the whole component is discovered. -/
theorem C24_dfs_missed_only_beside_cycle_partial (g : GraphI) (hg : g.Lawful)
    (root : Nat) (steps : List Step) (h : DepthFirst.Run g root steps) :
    (∀ u ∈ discovered root steps, ∀ v, g.Adj u v → v ∉ discovered root steps →
      ∃ n ∈ discovered root steps, n ≠ u ∧ g.Adj u n ∧ NonTree steps u n) ∧
    (∀ v ∈ discovered root steps, g.simple.Reachable root v) := by
  obtain ⟨hr, d, d', -, -, -, i, q⟩ := h.inv hg
  exact ⟨fun u hu v ha hv => i.incomplete q hu ha hv, i.truth.reachable hg i.step_adj⟩

/-- **C24, every graph, exact criterion.**  A node other than the root is missed exactly when every edge that
leads to it from a discovered node is forgotten (`DepthFirst.Dropped`). -/
theorem C24_dfs_missed_iff_partial (g : GraphI) (hg : g.Lawful) (root : Nat) (steps : List Step)
    (h : DepthFirst.Run g root steps) (v : Nat) (hv : v ≠ root) :
    v ∉ discovered root steps ↔
      ∀ u ∈ discovered root steps, u ≠ v → g.Adj u v → DepthFirst.Dropped g root steps u v := by
  obtain ⟨d, i, q⟩ := h.inv2 hg
  constructor
  · intro hd u hu hne ha
    rcases i.fate u hu v hne ha (by
      rintro s hs - ⟨rfl, -⟩
      exact hd (i.inv.truth.sid_mem hs)) with h1 | h1 | h1
    · obtain ⟨s, hs, e⟩ := List.mem_map.1 h1
      simp only [Step.pair, Prod.mk.injEq] at e
      obtain ⟨rfl, rfl⟩ := e
      exact absurd (i.inv.truth.tid_mem hs) hd
    · rw [q] at h1; simp at h1
    · exact h1
  · intro hall hd
    rcases mem_discovered.1 hd with h1 | ⟨s, hs, hc, rfl⟩
    · exact hv h1
    · have := hall s.sid (i.inv.truth.sid_mem hs) (i.inv.truth.ne hs hc) (i.inv.step_adj s hs)
      exact (i.gone _ _ this).1 (List.mem_map.2 ⟨s, hs, rfl⟩)

/-- **C24, every graph, where it can fail.**  A discovered node `u` with an undiscovered neighbor `v` lies on a cycle and has
at least four different neighbors, or at least three if it is the root.  Two of them, `a` and `z`, other than `v`, are joined
around `u`, and if `u` is not the root, another one is joined to the root, by paths apart from each other. -/
theorem C24_dfs_missed_next_to_partial (g : GraphI) (hg : g.Lawful) (root : Nat) (steps : List Step)
    (h : DepthFirst.Run g root steps) (u v : Nat) (hu : u ∈ discovered root steps) (ha : g.Adj u v)
    (hv : v ∉ discovered root steps) :
    (OnCycle g u ∧ (u ≠ root → Deg4 g u) ∧ Deg3 g u) ∧
    ∃ a z, [a, z, v].Nodup ∧ (∀ y ∈ [a, z, v], g.simple.Adj u y) ∧ JoinedAround g u a z ∧
      (u ≠ root → ∃ p, DepthFirst.Fork g root u p a z v) := by
  obtain ⟨d, i, q⟩ := h.inv2 hg
  obtain ⟨a, z, -, hn, hadj, hj, hf⟩ := i.missed_fork hg q hu ha hv
  refine ⟨⟨?_, fun hr => ?_, ?_⟩, a, z, hn, hadj, hj, hf⟩
  · have hn' := hn
    simp only [List.nodup_cons, List.mem_cons, not_or] at hn'
    obtain ⟨c, hc, -⟩ := DepthFirst.cycle_of_joined (hadj a (by simp)) (hadj z (by simp)) hn'.1.1 hj
    exact ⟨c, hc⟩
  · obtain ⟨p, hf⟩ := hf hr
    exact hf.deg4
  · have hn' := hn
    simp only [List.nodup_cons, List.mem_cons, List.not_mem_nil, or_false, not_or, not_false_eq_true, List.nodup_nil,
      and_true] at hn'
    exact ⟨a, z, v, hn'.1.1, hn'.1.2, hn'.2, hadj _ (by simp), hadj _ (by simp), hadj _ (by simp)⟩

/-- **C24, where cycles are tame** (`DepthFirst.Tame`): for example, where the nodes on cycles have at most three neighbors,
and the root is on no cycle, or has at most two neighbors, or is not a cut vertex.  Includes acyclic graphs, graphs of maximum
degree two, graphs of maximum degree three traversed from a node with at most two neighbors, and graphs whose cycles share no
nodes and are entered at nodes with at most three neighbors (`C24_tame_classes_partial`).  Missing: the other graphs (false there
in general). -/
theorem C24_dfs_discovers_tame_partial (g : GraphI) (hg : g.Lawful) (root : Nat) (ht : DepthFirst.Tame g root)
    (steps : List Step) (h : DepthFirst.Run g root steps) (v : Nat) :
    v ∈ discovered root steps ↔ g.simple.Reachable root v := by
  obtain ⟨d, i, q⟩ := h.inv2 hg
  refine ⟨i.inv.truth.reachable hg i.inv.step_adj v, ?_⟩
  exact closed_reachable hg (by simp [discovered]) (fun u v hu ha => ht.closed hg i q hu ha)

/-- Acyclic graphs, and graphs of maximum degree two, are tame from every root; so are graphs of maximum degree three
from a root with at most two neighbors. -/
theorem C24_tame_classes_partial (g : GraphI) (root : Nat) :
    (g.simple.IsAcyclic → DepthFirst.Tame g root) ∧ ((∀ x, ¬ Deg3 g x) → DepthFirst.Tame g root) ∧
    ((∀ x, ¬ Deg4 g x) → ¬ Deg3 g root → DepthFirst.Tame g root) := by
  refine ⟨fun h => .of_degrees ?_ ?_, fun h => .of_degrees ?_ (.inr (.inl (h root))),
    fun h h' => .of_degrees (fun x _ _ _ => h x) (.inr (.inl h'))⟩
  · rintro x - - ⟨c, hc⟩
    exact absurd hc (h c)
  · left
    rintro ⟨c, hc⟩
    exact h c hc
  · rintro x - - - ⟨a, b, c, -, h1, h2, -, h3, -, -, h4, h5, h6, -⟩
    exact h x ⟨a, b, c, h1, h2, h3, h4, h5, h6⟩

/-- Tame from a root that is on no cycle, or has at most two neighbors, or is not a cut vertex, are the graphs of which every
other node on a cycle has at most three neighbors, or at most two along edges of cycles, one of them towards the root: cycles that
share no nodes (rings, as chemists say, that are not fused), entered at nodes with at most three neighbors. -/
theorem C24_tame_cycles_partial (g : GraphI) (root : Nat)
    (hothers : ∀ x, g.simple.Reachable root x → x ≠ root → OnCycle g x → ¬ Deg4 g x ∨
      ((∀ a b c, [a, b, c].Nodup → ¬ (∀ y ∈ [a, b, c], ∃ w : g.simple.Walk x x, w.IsCycle ∧ s(x, y) ∈ w.edges)) ∧
        ∀ p, g.simple.Adj x p → JoinedAround g x p root → ∃ w : g.simple.Walk x x, w.IsCycle ∧ s(x, p) ∈ w.edges))
    (hroot : ¬ OnCycle g root ∨ ¬ Deg3 g root ∨
      ∀ a b, g.simple.Adj root a → g.simple.Adj root b → JoinedAround g root a b) : DepthFirst.Tame g root :=
  .of_edges hothers hroot

theorem exG_adj {u v : Nat} (h : exG.toI.simple.Adj u v) :
    (u, v) ∈ [(4, 7), (4, 2), (7, 4), (7, 2), (2, 7), (2, 4), (2, 9), (9, 2)] := by
  rw [exG_lawful.simple_adj] at h
  have hu := exG_lawful.adj_src h.2
  have hn : exG.toI.nodes = [4, 7, 2, 9, 5] := by decide +kernel
  rw [hn] at hu
  have key : ∀ u ∈ [4, 7, 2, 9, 5], ∀ v ∈ exG.toI.nbr u,
      (u, v) ∈ [(4, 7), (4, 2), (7, 4), (7, 2), (2, 7), (2, 4), (2, 9), (9, 2)] := by
    decide +kernel
  exact key u hu v (GraphI.mem_nbr.2 h.2)

/-- The example graph (a triangle 4-7-2 with a tail 2-9, and an isolated node) is tame from node 4. -/
theorem exG_tame : DepthFirst.Tame exG.toI 4 := by
  refine (C24_tame_classes_partial exG.toI 4).2.2 ?_ ?_
  · rintro x ⟨a, b, c, d, h1, h2, h3, h4, h5, h6, ha, hb, hc, hd⟩
    have ha := exG_adj ha
    have hb := exG_adj hb
    have hc := exG_adj hc
    have hd := exG_adj hd
    simp only [List.mem_cons, Prod.mk.injEq, List.not_mem_nil, or_false] at ha hb hc hd
    omega
  · rintro ⟨a, b, c, h1, h2, h3, ha, hb, hc⟩
    have ha := exG_adj ha
    have hb := exG_adj hb
    have hc := exG_adj hc
    simp only [List.mem_cons, Prod.mk.injEq, List.not_mem_nil, or_false] at ha hb hc
    omega

example : exG.toI.Lawful ∧ DepthFirst.Tame exG.toI 4 ∧ DepthFirst.Run exG.toI 4 exDfs ∧ Deg3 exG.toI 2 :=
  ⟨exG_lawful, exG_tame, exG_dfs, 7, 4, 9, by decide, by decide, by decide,
    (exG_lawful.simple_adj).2 ⟨by decide, GraphI.mem_nbr.1 (by decide +kernel)⟩,
    (exG_lawful.simple_adj).2 ⟨by decide, GraphI.mem_nbr.1 (by decide +kernel)⟩,
    (exG_lawful.simple_adj).2 ⟨by decide, GraphI.mem_nbr.1 (by decide +kernel)⟩⟩

/-- A triangle 0-1-2 with two more neighbors 3 and 4 of node 1, which has four. -/
def ringG : DefaultGraph :=
  [GraphOp.node 0, .node 1, .node 2, .node 3, .node 4, .edge 0 1, .edge 1 2, .edge 2 0, .edge 1 3, .edge 1 4].foldl
    DefaultGraph.perform .new

theorem ringG_lawful : ringG.toI.Lawful := by
  refine reachable_lawful _ ?_
  unfold ringG
  simp only [List.foldl, DefaultGraph.perform]
  repeat (first | exact .new | apply DefaultGraph.Reachable.addNode | apply DefaultGraph.Reachable.addEdge)

theorem ringG_adj {u v : Nat} (h : ringG.toI.simple.Adj u v) :
    (u, v) ∈ [(0, 1), (0, 2), (1, 0), (1, 2), (1, 3), (1, 4), (2, 1), (2, 0), (3, 1), (4, 1)] := by
  rw [ringG_lawful.simple_adj] at h
  have hu := ringG_lawful.adj_src h.2
  have hn : ringG.toI.nodes = [0, 1, 2, 3, 4] := by decide +kernel
  rw [hn] at hu
  have key : ∀ u ∈ [0, 1, 2, 3, 4], ∀ v ∈ ringG.toI.nbr u,
      (u, v) ∈ [(0, 1), (0, 2), (1, 0), (1, 2), (1, 3), (1, 4), (2, 1), (2, 0), (3, 1), (4, 1)] := by
    decide +kernel
  exact key u hu v (GraphI.mem_nbr.2 h.2)

/-- Tame from a node of the triangle, although a node on the triangle has four neighbors. -/
theorem ringG_tame : DepthFirst.Tame ringG.toI 0 := by
  have around : ∀ a z, a ≠ z → JoinedAround ringG.toI 1 a z → a = 0 ∨ a = 2 := by
    rintro a z hne ⟨w, hw⟩
    cases w with
    | nil => exact absurd rfl hne
    | @cons _ y _ hay w =>
      rw [SimpleGraph.Walk.support_cons, List.mem_cons, not_or] at hw
      have hy : y ≠ 1 := fun e => hw.2 (e ▸ w.start_mem_support)
      have h1 := ringG_adj hay
      simp only [List.mem_cons, Prod.mk.injEq, List.not_mem_nil, or_false] at h1
      omega
  refine ⟨?_, DepthFirst.tame_root (.inr (.inl ?_))⟩
  · intro x hx p a z b hf
    exfalso
    have hx1 : x = 1 := by
      obtain ⟨a', b', c', d', n1, n2, n3, n4, n5, n6, k1, k2, k3, k4⟩ := hf.deg4
      have := ringG_adj k1
      have := ringG_adj k2
      have := ringG_adj k3
      have := ringG_adj k4
      simp only [List.mem_cons, Prod.mk.injEq, List.not_mem_nil, or_false] at *
      omega
    subst hx1
    have hn := hf.nodup
    simp only [List.nodup_cons, List.mem_cons, List.not_mem_nil, or_false, not_or, not_false_eq_true, List.nodup_nil,
      and_true] at hn
    obtain ⟨w, w', e1, e2, -⟩ := hf.paths
    have ha := around a z hn.2.1.1 ⟨w', e2⟩
    have hz := around z a (Ne.symm hn.2.1.1) ⟨w'.reverse, by simpa using e2⟩
    have hp : p = 0 ∨ p = 2 := by
      by_cases h0 : p = 0
      · exact .inl h0
      · exact around p 0 h0 ⟨w.reverse, by simpa using e1⟩
    omega
  · rintro ⟨a, b, c, h1, h2, h3, ha, hb, hc⟩
    have ha := ringG_adj ha
    have hb := ringG_adj hb
    have hc := ringG_adj hc
    simp only [List.mem_cons, Prod.mk.injEq, List.not_mem_nil, or_false] at ha hb hc
    omega

example : ringG.toI.Lawful ∧ DepthFirst.Tame ringG.toI 0 ∧ Deg4 ringG.toI 1 ∧
    DepthFirst.Run ringG.toI 0 [⟨0, 1, false⟩, ⟨1, 2, false⟩, ⟨2, 0, true⟩, ⟨1, 3, false⟩, ⟨1, 4, false⟩] := by
  have adj : ∀ u v, v ∈ ringG.toI.nbr u → u ≠ v → ringG.toI.simple.Adj u v := fun u v he hne =>
    (ringG_lawful.simple_adj).2 ⟨hne, GraphI.mem_nbr.1 he⟩
  exact ⟨ringG_lawful, ringG_tame, ⟨0, 2, 3, 4, by decide, by decide, by decide, by decide, by decide, by decide,
    adj _ _ (by decide +kernel) (by decide), adj _ _ (by decide +kernel) (by decide), adj _ _ (by decide +kernel) (by decide),
    adj _ _ (by decide +kernel) (by decide)⟩, DepthFirst.run_of_collect (fuel := 20) (by decide +kernel)⟩

/-- A path 0 - 1 - 2 - 3 (in another insertion order), for the examples: acyclic, of maximum degree two. -/
def pathG : DefaultGraph :=
  [GraphOp.node 1, .node 0, .node 2, .node 3, .edge 2 1, .edge 0 1, .edge 2 3].foldl
    DefaultGraph.perform .new

theorem pathG_noAdjLoop : pathG.ReachableNoAdjLoop := by
  unfold pathG
  simp only [List.foldl, DefaultGraph.perform]
  repeat (first | exact .new | apply DefaultGraph.ReachableNoAdjLoop.addNode
                | apply DefaultGraph.ReachableNoAdjLoop.addEdge)

theorem pathG_reachable : pathG.Reachable := by
  unfold pathG
  simp only [List.foldl, DefaultGraph.perform]
  repeat (first | exact .new | apply DefaultGraph.Reachable.addNode | apply DefaultGraph.Reachable.addEdge)

theorem pathG_lawful : pathG.toI.Lawful := reachable_lawful _ pathG_reachable

theorem pathG_adj {u v : Nat} (h : pathG.toI.simple.Adj u v) : (u = v + 1 ∨ v = u + 1) ∧ u ≤ 3 ∧ v ≤ 3 := by
  rw [pathG_lawful.simple_adj] at h
  have hu := pathG_lawful.adj_src h.2
  have hn : pathG.toI.nodes = [1, 0, 2, 3] := by decide +kernel
  rw [hn] at hu
  have key : ∀ u ∈ [1, 0, 2, 3], ∀ v ∈ pathG.toI.nbr u, (u = v + 1 ∨ v = u + 1) ∧ u ≤ 3 ∧ v ≤ 3 := by
    decide +kernel
  exact key u hu v (GraphI.mem_nbr.2 h.2)

theorem pathG_deg2 : ∀ x, ¬ Deg3 pathG.toI x := by
  rintro x ⟨a, b, c, h1, h2, h3, ha, hb, hc⟩
  have := (pathG_adj ha).1
  have := (pathG_adj hb).1
  have := (pathG_adj hc).1
  omega

theorem pathG_acyclic : pathG.toI.simple.IsAcyclic := by
  rw [SimpleGraph.isAcyclic_iff_forall_adj_isBridge]
  have main : ∀ v w, w = v + 1 → pathG.toI.simple.Adj v w →
      ¬ (pathG.toI.simple \ SimpleGraph.fromEdgeSet {s(v, w)}).Reachable v w := by
    rintro v _ rfl _ ⟨p⟩
    -- no step of the remaining graph crosses from `≤ v` to `> v`
    have key : ∀ a b, (pathG.toI.simple \ SimpleGraph.fromEdgeSet {s(v, v + 1)}).Walk a b → a ≤ v → b ≤ v := by
      intro a b q
      induction q with
      | nil => exact id
      | cons hadj q ih =>
        intro hle
        apply ih
        rw [SimpleGraph.sdiff_adj] at hadj
        have h1 := (pathG_adj hadj.1).1
        by_contra hc
        apply hadj.2
        rw [SimpleGraph.fromEdgeSet_adj]
        refine ⟨?_, by omega⟩
        rename_i x y z
        have e1 : x = v := by omega
        have e2 : y = v + 1 := by omega
        subst e1 e2; simp
    have := key v (v + 1) p (le_refl _)
    omega
  intro v w hadj
  rw [SimpleGraph.isBridge_iff]
  rcases (pathG_adj hadj).1 with h | h
  · intro hr
    have := main w v h hadj.symm
    rw [Sym2.eq_swap] at this
    exact this hr.symm
  · exact main v w h hadj

theorem pathG_dfs : DepthFirst.Run pathG.toI 1 [⟨1, 2, false⟩, ⟨2, 3, false⟩, ⟨1, 0, false⟩] :=
  DepthFirst.run_of_collect (fuel := 10) (by decide +kernel)

example : pathG.toI.Lawful ∧ pathG.toI.simple.IsAcyclic ∧ (∀ x, ¬ Deg3 pathG.toI x) ∧
    ∃ steps, DepthFirst.Run pathG.toI 1 steps := ⟨pathG_lawful, pathG_acyclic, pathG_deg2, _, pathG_dfs⟩

example : missG.toI.Lawful ∧ DepthFirst.Run missG.toI 0 [⟨0, 1, false⟩, ⟨1, 2, false⟩, ⟨2, 0, true⟩] :=
  ⟨reachable_lawful _ missG_reachable, missG_dfs⟩

/-! ### C25 -/

/-- **C25.** At every point of the traversal the source of the next step is the node discovered last or one
of its ancestors in the tree of discovery steps. -/
theorem C25_dfs_backtracks (g : GraphI) (hg : g.Lawful) (root : Nat) (steps : List Step)
    (h : DepthFirst.Run g root steps) (pre : List Step) (s : Step) (post : List Step)
    (he : steps = pre ++ s :: post) (last : Nat) (hlast : (discovered root pre).getLast? = some last) :
    Ancestor pre s.sid last := by
  obtain ⟨hr, d, d', -, -, -, i, q⟩ := h.inv hg
  exact i.back pre s post he last hlast

example : exG.toI.Lawful ∧ DepthFirst.Run exG.toI 4 exDfs ∧
    exDfs = [⟨4, 7, false⟩, ⟨7, 2, false⟩, ⟨2, 4, true⟩] ++ (⟨2, 9, false⟩ : Step) :: [] ∧
    (discovered 4 [⟨4, 7, false⟩, ⟨7, 2, false⟩, ⟨2, 4, true⟩]).getLast? = some 2 :=
  ⟨exG_lawful, exG_dfs, by decide, by decide⟩

/-! ### C26 -/

/-- **C26, table.**  `into_table` yields the root (if there is a step) and the discovered nodes in discovery
order, and the steps' edges in order. -/
theorem C26_into_table (g : GraphI) (hg : g.Lawful) (root : Nat) (steps : List Step)
    (h : DepthFirst.Run g root steps) (d : DepthFirst) (hd : DepthFirst.new g root = .ok d)
    (fuel : Nat) (hf : steps.length < fuel) :
    DepthFirst.intoTable g fuel d =
      .ok (if steps = [] then [] else discovered root steps, steps.map (fun s => (s.sid, s.tid))) := by
  obtain ⟨hr, d0, d', e, t, he, i, q⟩ := h.inv hg
  rw [hd] at e; injection e with e; subst e
  unfold DepthFirst.intoTable
  rw [forLoop_of_trace _ t he fuel hf, DepthFirst.table_fold i.truth]
  simp [DepthFirst.seen, Step.pair]

theorem DepthFirst.Run.loopsOnce {g : GraphI} (hg : g.Lawful) (hl : g.NoDoubleLoop) {root : Nat} {steps : List Step}
    (h : DepthFirst.Run g root steps) : LoopsOnce steps := by
  obtain ⟨hr, d0, d', e, t, he, i, q⟩ := h.inv hg
  intro v
  have : (steps.map Step.pair).count (v, v) ≤ 1 := by have := i.onceLoop v (hl v); omega
  exact this

/-- **C26, graph.**  If no step from a node to itself occurs twice, converting a depth-first traversal into a
`DefaultGraph` is `Ok`, and gives exactly these nodes and edges. -/
theorem C26_try_from_once (g : GraphI) (hg : g.Lawful) (root : Nat) (steps : List Step) (hl : LoopsOnce steps)
    (h : DepthFirst.Run g root steps) (d : DepthFirst) (hd : DepthFirst.new g root = .ok d) :
    ∃ r : DefaultGraph, r.ReachableNoAdjLoop ∧
      r.nodes = (if steps = [] then [] else discovered root steps) ∧
      r.edges = steps.map (fun s => (s.sid, s.tid)) ∧
      (∀ v ∈ r.nodes, r.neighbors v = .ok (incident v (steps.map (fun s => (s.sid, s.tid))))) ∧
      ∀ fuel, steps.length < fuel → DefaultGraph.tryFromDfs g fuel d = .ok r := by
  obtain ⟨hr, d0, d', e, t, he, i, q⟩ := h.inv hg
  rw [hd] at e; injection e with e; subst e
  obtain ⟨r, h1, h2, h3, h4⟩ := DefaultGraph.dfs_fold i.truth
    (fun u v hne => by have := i.once u v hne; omega)
    hl
  have key : ∀ fuel, steps.length < fuel → DefaultGraph.tryFromDfs g fuel d = .ok r := by
    intro fuel hf
    unfold DefaultGraph.tryFromDfs
    rw [forLoop_of_trace _ t he fuel hf, h1]
  refine ⟨r, DefaultGraph.reachable_tryFromDfs g _ d r (key (steps.length + 1) (by omega)), ?_, h4, ?_, key⟩
  · rw [h3]; simp [DepthFirst.seen]
  · intro v hv
    rw [h2.2.2.1 v hv, h4]
    rfl

/-- **C26, graph.**  In particular on a graph where no node is listed twice as its own neighbor. -/
theorem C26_try_from (g : GraphI) (hg : g.Lawful) (hl : g.NoDoubleLoop) (root : Nat) (steps : List Step)
    (h : DepthFirst.Run g root steps) (d : DepthFirst) (hd : DepthFirst.new g root = .ok d) :
    ∃ r : DefaultGraph, r.ReachableNoAdjLoop ∧
      r.nodes = (if steps = [] then [] else discovered root steps) ∧
      r.edges = steps.map (fun s => (s.sid, s.tid)) ∧
      (∀ v ∈ r.nodes, r.neighbors v = .ok (incident v (steps.map (fun s => (s.sid, s.tid))))) ∧
      ∀ fuel, steps.length < fuel → DefaultGraph.tryFromDfs g fuel d = .ok r :=
  C26_try_from_once g hg root steps (h.loopsOnce hg hl) h d hd

/-- **C26, failure.**  Otherwise it fails, with a `DuplicateEdge` for a self-loop that is reported twice. -/
theorem C26_try_from_fails (g : GraphI) (hg : g.Lawful) (root : Nat) (steps : List Step) (hl : ¬ LoopsOnce steps)
    (h : DepthFirst.Run g root steps) (d : DepthFirst) (hd : DepthFirst.new g root = .ok d) :
    ∃ v, 2 ≤ (steps.map (fun s => (s.sid, s.tid))).count (v, v) ∧
      ∀ fuel, steps.length < fuel → DefaultGraph.tryFromDfs g fuel d = .err (.duplicateEdge v v) := by
  obtain ⟨hr, d0, d', e, t, he, i, q⟩ := h.inv hg
  rw [hd] at e; injection e with e; subst e
  obtain ⟨v, h1, h2⟩ := DefaultGraph.dfs_fold_fails i.truth
    (fun u v hne => by have := i.once u v hne; omega) hl
  refine ⟨v, h1, fun fuel hf => ?_⟩
  unfold DefaultGraph.tryFromDfs
  rw [forLoop_of_trace _ t he fuel hf, h2]

/-- With a self-loop added by `add_edge` (listed twice) the conversion fails. -/
theorem C26_double_loop_fails :
    ∃ (g : DefaultGraph) (d : DepthFirst), g.Reachable ∧ DepthFirst.new g.toI 0 = .ok d ∧
      DefaultGraph.tryFromDfs g.toI 10 d = .err (.duplicateEdge 0 0) :=
  ⟨(((DefaultGraph.new.addNode 0).1.addEdge 0 0)).1, _, .addEdge _ _ _ (.addNode _ _ .new), rfl,
    by decide +kernel⟩

theorem GraphI.Loopless.noDoubleLoop {g : GraphI} (h : g.Loopless) : g.NoDoubleLoop := by
  intro v
  rw [List.count_eq_zero.2 (by rw [GraphI.mem_nbr]; exact h v)]; omega

example : exG.toI.Lawful ∧ exG.toI.NoDoubleLoop ∧ DepthFirst.Run exG.toI 4 exDfs ∧
    ∃ d, DepthFirst.new exG.toI 4 = .ok d :=
  ⟨exG_lawful, exG_loopless.noDoubleLoop, exG_dfs, _, DepthFirst.new_eq exG_lawful (by decide +kernel)⟩

/-! ### C47 -/

/-- **C47.** The order of the steps follows the neighbor order.  The traversal starts with the first neighbor of
the root; right after a node is discovered comes the step to its first neighbor other than the one it was
discovered from; the steps from one node follow its neighbor order; and whenever a step is taken, every edge
still to be reported starts at an ancestor of its source, and those that start at its source come later in
neighbor order. -/
theorem C47_dfs_order (g : GraphI) (hg : g.Lawful) (root : Nat) (steps : List Step)
    (h : DepthFirst.Run g root steps) :
    ((steps.head?.map (fun s => (s.sid, s.tid))) = (g.nbr root).head?.map (fun x => (root, x))) ∧
    (∀ pre s post, steps = pre ++ s :: post → s.cut = false →
      ∀ a, ((g.nbr s.tid).filter (fun x => x != s.sid)).head? = some a →
        post.head?.map (fun t => (t.sid, t.tid)) = some (s.tid, a)) ∧
    (∀ v, ((steps.filter (fun s => s.sid == v)).map Step.tid).Sublist (g.nbr v)) ∧
    (∀ pre t post, steps = pre ++ t :: post → ∀ u v, DepthFirst.Waiting g root pre u v →
      (u = t.sid ∧ v = t.tid) ∨ (Ancestor pre u t.sid ∧ (u = t.sid → [t.tid, v].Sublist (g.nbr u)))) := by
  obtain ⟨d, i, q⟩ := h.inv2 hg
  refine ⟨?_, ?_, ?_, i.choice⟩
  · cases hs : steps with
    | nil =>
      have := i.start hs
      rw [q] at this
      have : g.nbr root = [] := by
        cases hr : g.nbr root with
        | nil => rfl
        | cons a l => rw [hr] at this; simp at this
      simp [this]
    | cons s post =>
      have := i.first s post hs
      simp [this.1, this.2]
  · intro pre s post he hc a ha
    cases post with
    | nil =>
      have := i.topmost pre s he hc a ha
      rw [q] at this; simp at this
    | cons t post =>
      have := i.deeper pre s t post he hc a ha
      simp [this.1, this.2]
  · intro v
    have := i.order v
    rw [q, List.append_nil] at this
    refine List.Sublist.trans ?_ this
    unfold DepthFirst.tgts
    rw [List.filter_map, List.map_map]
    exact List.Sublist.refl _

example : exG.toI.Lawful ∧ DepthFirst.Run exG.toI 4 exDfs ∧ exG.toI.nbr 4 = [7, 2] ∧ exG.toI.nbr 2 = [7, 4, 9] :=
  ⟨exG_lawful, exG_dfs, by decide +kernel, by decide +kernel⟩

/-! ### C48 -/

/-- **C48.** Which edges are reported: for a discovered node `u` and another neighbor `v` of it that `u` was not
discovered from, there is a step from `u` to `v` exactly when the edge is not forgotten
(`DepthFirst.Dropped`) in the course of the traversal. -/
theorem C48_dfs_reported (g : GraphI) (hg : g.Lawful) (root : Nat) (steps : List Step)
    (h : DepthFirst.Run g root steps) (u v : Nat) (hu : u ∈ discovered root steps) (hne : u ≠ v) (ha : g.Adj u v)
    (hp : ∀ s ∈ steps, s.cut = false → ¬ (s.sid = v ∧ s.tid = u)) :
    (∃ s ∈ steps, s.sid = u ∧ s.tid = v) ↔ ¬ DepthFirst.Dropped g root steps u v := by
  obtain ⟨d, i, q⟩ := h.inv2 hg
  constructor
  · rintro ⟨s, hs, rfl, rfl⟩ hd
    exact (i.gone _ _ hd).1 (List.mem_map.2 ⟨s, hs, rfl⟩)
  · intro hd
    rcases i.fate u hu v hne ha hp with h1 | h1 | h1
    · obtain ⟨s, hs, e⟩ := List.mem_map.1 h1
      simp only [Step.pair, Prod.mk.injEq] at e
      exact ⟨s, hs, e⟩
    · rw [q] at h1; simp at h1
    · exact absurd h1 hd

/-- In `missG` (0-1, 0-2, 0-3, 1-2) the discovery of 2 from 1 forgets the edge from 0 to 3; in the example graph the
edge from 2 to 9 is not forgotten. -/
example : missG.toI.Lawful ∧ DepthFirst.Run missG.toI 0 [⟨0, 1, false⟩, ⟨1, 2, false⟩, ⟨2, 0, true⟩] ∧
    DepthFirst.Dropped missG.toI 0 [⟨0, 1, false⟩, ⟨1, 2, false⟩, ⟨2, 0, true⟩] 0 3 ∧
    exG.toI.Lawful ∧ DepthFirst.Run exG.toI 4 exDfs ∧ exG.toI.Adj 2 9 ∧
    (∀ s ∈ exDfs, s.cut = false → ¬ (s.sid = 9 ∧ s.tid = 2)) :=
  ⟨reachable_lawful _ missG_reachable, missG_dfs,
    ⟨[⟨0, 1, false⟩], ⟨1, 2, false⟩, [⟨2, 0, true⟩], rfl, rfl, by decide, by decide, by decide,
      .inl ⟨by decide, GraphI.mem_nbr.1 (by decide +kernel)⟩⟩,
    exG_lawful, exG_dfs, GraphI.mem_nbr.1 (by decide +kernel), by decide⟩

end Gamma
