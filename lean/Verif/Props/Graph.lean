import Verif.Proofs.GraphBuild
/-
Properties C01–C13: `DefaultGraph`.
-/
namespace Gamma
open DefaultGraph

/-- Witness used in the non-vacuity examples: a triangle 4-7-2 with a tail 2-9 and an isolated node 5,
built by calls of which three fail. -/
def exG : DefaultGraph :=
  [GraphOp.node 4, .node 7, .node 2, .node 4, .edge 4 7, .edge 7 2, .node 9, .edge 2 4, .edge 4 2,
    .edge 1 4, .node 5, .edge 2 9].foldl DefaultGraph.perform .new

theorem exG_reachable : exG.Reachable := by
  unfold exG
  simp only [List.foldl, DefaultGraph.perform]
  repeat (first | exact .new | apply DefaultGraph.Reachable.addNode | apply DefaultGraph.Reachable.addEdge)

theorem exG_noAdjLoop : exG.ReachableNoAdjLoop := by
  unfold exG
  simp only [List.foldl, DefaultGraph.perform]
  repeat (first | exact .new | apply DefaultGraph.ReachableNoAdjLoop.addNode
                | apply DefaultGraph.ReachableNoAdjLoop.addEdge)

example : exG.nodes = [4, 7, 2, 9, 5] ∧ exG.edges = [(4, 7), (7, 2), (2, 4), (2, 9)] ∧
    exG.neighbors 2 = .ok [7, 4, 9] := by decide +kernel

/-! ### C01 -/

/-- **C01.** `add_node(id)` succeeds exactly when `has_node(id)` was false; then `id` is the last node, has
no neighbors and everything else is as before; otherwise `DuplicateNode(id)` and nothing changes. -/
theorem C01_add_node (g : DefaultGraph) (hg : g.Reachable) (id : Nat) :
    (g.hasNode id = true → g.addNode id = (g, .err (.duplicateNode id))) ∧
    (g.hasNode id = false →
      (g.addNode id).2 = .ok () ∧
      (g.addNode id).1.nodes = g.nodes ++ [id] ∧
      (g.addNode id).1.edges = g.edges ∧
      (g.addNode id).1.neighbors id = .ok [] ∧
      (∀ x, x ≠ id → (g.addNode id).1.neighbors x = g.neighbors x) ∧
      (∀ x, (g.addNode id).1.hasNode x = (g.hasNode x || x == id)) ∧
      (∀ x y, x ≠ id → y ≠ id → (g.addNode id).1.hasEdge x y = g.hasEdge x y)) := by
  have hw := hg.wf
  constructor
  · intro h; exact hw.addNode_dup ((hw.hasNode_iff id).1 h)
  · intro h
    have hm : id ∉ g.nodes := by rw [← hw.hasNode_iff, h]; simp
    obtain ⟨h1, a⟩ := hw.addNode_new hm
    refine ⟨h1, a.nodes, a.edges, a.nb_new, a.nb_old, ?_, ?_⟩
    · intro x
      rw [Bool.eq_iff_iff, a.wf.hasNode_iff, a.nodes]
      simp [hw.hasNode_iff]
    · intro x y hx hy
      by_cases h2 : x ∈ g.nodes
      · by_cases h3 : y ∈ g.nodes
        · have e1 := hw.neighbors_eq h2
          rw [hw.hasEdge_eq e1 h3]
          rw [← a.nb_old x hx] at e1
          exact a.wf.hasEdge_eq e1 (by rw [a.nodes]; simp [h3])
        · rw [hw.hasEdge_err_right h2 h3, a.wf.hasEdge_err_right] <;> rw [a.nodes] <;> simp [h2, h3, hy]
      · rw [hw.hasEdge_err_left h2, a.wf.hasEdge_err_left]; rw [a.nodes]; simp [h2, hx]

example : exG.Reachable ∧ exG.hasNode 3 = false ∧ exG.hasNode 7 = true :=
  ⟨exG_reachable, by decide +kernel, by decide +kernel⟩

/-! ### C02 -/

/-- **C02.** `add_edge(s,t)`: error precedence, and exactly one edge appended on success. -/
theorem C02_add_edge (g : DefaultGraph) (hg : g.Reachable) (s t : Nat) :
    (g.hasNode s = false → g.addEdge s t = (g, .err (.missingNode s))) ∧
    (g.hasNode s = true → g.hasNode t = false → g.addEdge s t = (g, .err (.missingNode t))) ∧
    (g.hasNode s = true → g.hasNode t = true → g.hasEdge s t = .ok true →
      g.addEdge s t = (g, .err (.duplicateEdge s t))) ∧
    (g.hasNode s = true → g.hasNode t = true → g.hasEdge s t ≠ .ok true →
      (g.addEdge s t).2 = .ok () ∧
      (g.addEdge s t).1.nodes = g.nodes ∧
      (g.addEdge s t).1.edges = g.edges ++ [(s, t)] ∧
      (s ≠ t → ∀ ls lt, g.neighbors s = .ok ls → g.neighbors t = .ok lt →
        (g.addEdge s t).1.neighbors s = .ok (ls ++ [t]) ∧
        (g.addEdge s t).1.neighbors t = .ok (lt ++ [s])) ∧
      (s = t → ∀ ls, g.neighbors s = .ok ls →
        (g.addEdge s t).1.neighbors s = .ok (ls ++ [s, s])) ∧
      (∀ x, x ≠ s → x ≠ t → (g.addEdge s t).1.neighbors x = g.neighbors x)) := by
  have hw := hg.wf
  have hf : ∀ x, g.hasNode x = false → x ∉ g.nodes := by
    intro x h; rw [← hw.hasNode_iff, h]; simp
  refine ⟨fun h => hw.addEdge_missing_left (hf s h),
    fun h h' => hw.addEdge_missing_right ((hw.hasNode_iff s).1 h) (hf t h'), ?_, ?_⟩
  · intro h1 h2 h3
    rw [hw.hasNode_iff] at h1 h2
    refine hw.addEdge_dup h1 h2 ?_
    rw [hw.hasEdge_eq (hw.neighbors_eq h1) h2] at h3
    rw [hw.adj_iff (hw.neighbors_eq h1)]
    simpa using h3
  · intro h1 h2 h3
    rw [hw.hasNode_iff] at h1 h2
    have hna : ¬ g.toI.Adj s t := by
      rw [hw.adj_iff (hw.neighbors_eq h1)]
      rw [hw.hasEdge_eq (hw.neighbors_eq h1) h2] at h3
      simpa using h3
    obtain ⟨e, a⟩ := hw.addEdge_new h1 h2 hna
    refine ⟨e, a.nodes, a.edges, ?_, ?_, ?_⟩
    · intro hne ls lt hls hlt
      rw [a.nb s ls hls, a.nb t lt hlt]
      simp [hne, Ne.symm hne]
    · rintro rfl ls hls
      rw [a.nb s ls hls]; simp
    · intro x hxs hxt
      by_cases hx : x ∈ g.nodes
      · rw [hw.neighbors_eq hx, a.nb x _ (hw.neighbors_eq hx)]; simp [hxs, hxt]
      · rw [hw.neighbors_err hx, a.wf.neighbors_err]; rw [a.nodes]; exact hx

example : exG.Reachable ∧ exG.hasNode 4 = true ∧ exG.hasNode 9 = true ∧ exG.hasEdge 4 9 = .ok false ∧
    exG.hasEdge 4 2 = .ok true ∧ exG.hasNode 3 = false :=
  ⟨exG_reachable, by decide +kernel⟩

/-! ### C03 -/

/-- **C03.** Counts and membership agree with the iterators. -/
theorem C03_counts (g : DefaultGraph) (hg : g.Reachable) :
    g.order = g.nodes.length ∧ g.size = g.edges.length ∧ (g.isEmpty = true ↔ g.nodes = []) ∧
    g.nodes.Nodup ∧ (∀ id, g.hasNode id = true ↔ id ∈ g.nodes) ∧
    (∀ id l, g.neighbors id = .ok l → g.degree id = .ok l.length) := by
  refine ⟨rfl, rfl, by simp [DefaultGraph.isEmpty], hg.wf.nodup, hg.wf.hasNode_iff, ?_⟩
  intro id l hl
  rw [hg.wf.degree_eq, hl]; rfl

example : exG.Reachable ∧ exG.degree 2 = .ok 3 := ⟨exG_reachable, by decide +kernel⟩

/-! ### C04 -/

/-- **C04.** The graph is undirected and closed. -/
theorem C04_undirected (g : DefaultGraph) (hg : g.Reachable) :
    (∀ s t, g.hasNode s = true → g.hasNode t = true → g.hasEdge s t = g.hasEdge t s) ∧
    (∀ s t l, g.neighbors s = .ok l → (t ∈ l ↔ g.hasEdge s t = .ok true)) ∧
    (∀ s l, g.neighbors s = .ok l → ∀ t ∈ l, g.hasNode t = true) ∧
    (∀ s l, g.neighbors s = .ok l → ∀ t, t ≠ s → l.count t ≤ 1) := by
  have hw := hg.wf
  have hs := hg.sym
  have mem : ∀ s l, g.neighbors s = .ok l → ∀ t ∈ l, t ∈ g.nodes := by
    intro s l hl t ht; exact hs.adj_mem s t ⟨l, hl, ht⟩
  refine ⟨?_, ?_, ?_, ?_⟩
  · intro s t h1 h2
    rw [hw.hasNode_iff] at h1 h2
    rw [hw.hasEdge_eq (hw.neighbors_eq h1) h2, hw.hasEdge_eq (hw.neighbors_eq h2) h1]
    congr 1
    rw [Bool.eq_iff_iff]
    simp only [List.contains_iff_mem, GraphI.mem_nbr]
    exact ⟨hs.adj_symm _ _, hs.adj_symm _ _⟩
  · intro s t l hl
    constructor
    · intro ht
      rw [hw.hasEdge_eq hl (mem s l hl t ht)]
      simpa using ht
    · intro h
      by_cases ht : t ∈ g.nodes
      · rw [hw.hasEdge_eq hl ht] at h; simpa using h
      · rw [hw.hasEdge_err_right (hw.neighbors_mem hl) ht] at h; simp at h
  · intro s l hl t ht; exact (hw.hasNode_iff t).2 (mem s l hl t ht)
  · intro s l hl t hne; exact hs.neighbor_once s t l hl (Ne.symm hne)

example : exG.Reachable ∧ exG.neighbors 2 = .ok [7, 4, 9] ∧ exG.hasEdge 9 2 = .ok true :=
  ⟨exG_reachable, by decide +kernel⟩

/-- All of the above at once: every reachable `DefaultGraph` obeys the contract of the `Graph` trait, so the
theorems about lawful graphs below apply to it. -/
theorem reachable_lawful (g : DefaultGraph) (hg : g.Reachable) : g.toI.Lawful := hg.lawful

/-! ### C05 -/

/-- **C05.** Queries fail exactly on missing ids, with that id; neither queries nor `add_*` panic. -/
theorem C05_queries (g : DefaultGraph) (hg : g.Reachable) :
    (∀ id, g.hasNode id = false →
      g.neighbors id = .err (.missingNode id) ∧ g.degree id = .err (.missingNode id)) ∧
    (∀ id, g.hasNode id = true → (∃ l, g.neighbors id = .ok l) ∧ ∃ d, g.degree id = .ok d) ∧
    (∀ s t, g.hasNode s = false → g.hasEdge s t = .err (.missingNode s)) ∧
    (∀ s t, g.hasNode s = true → g.hasNode t = false → g.hasEdge s t = .err (.missingNode t)) ∧
    (∀ s t, g.hasNode s = true → g.hasNode t = true → ∃ b, g.hasEdge s t = .ok b) ∧
    (∀ id msg, (g.addNode id).2 ≠ .panic msg) ∧ (∀ s t msg, (g.addEdge s t).2 ≠ .panic msg) := by
  have hw := hg.wf
  have hf : ∀ x, g.hasNode x = false → x ∉ g.nodes := by
    intro x h; rw [← hw.hasNode_iff, h]; simp
  refine ⟨?_, ?_, ?_, ?_, ?_, ?_, ?_⟩
  · intro id h
    have := hw.neighbors_err (hf id h)
    exact ⟨this, by rw [hw.degree_eq, this]; rfl⟩
  · intro id h
    have := hw.neighbors_eq ((hw.hasNode_iff id).1 h)
    exact ⟨⟨_, this⟩, _, by rw [hw.degree_eq, this]; rfl⟩
  · intro s t h; exact hw.hasEdge_err_left (hf s h)
  · intro s t h h'; exact hw.hasEdge_err_right ((hw.hasNode_iff s).1 h) (hf t h')
  · intro s t h h'
    exact ⟨_, hw.hasEdge_eq (hw.neighbors_eq ((hw.hasNode_iff s).1 h)) ((hw.hasNode_iff t).1 h')⟩
  · intro id msg
    by_cases hm : id ∈ g.nodes
    · rw [hw.addNode_dup hm]; simp
    · rw [(hw.addNode_new hm).1]; simp
  · intro s t msg
    by_cases h1 : s ∈ g.nodes
    · by_cases h2 : t ∈ g.nodes
      · by_cases h3 : g.toI.Adj s t
        · rw [hw.addEdge_dup h1 h2 h3]; simp
        · rw [(hw.addEdge_new h1 h2 h3).1]; simp
      · rw [hw.addEdge_missing_right h1 h2]; simp
    · rw [hw.addEdge_missing_left h1]; simp

example : exG.Reachable ∧ exG.hasNode 3 = false ∧ exG.hasNode 4 = true :=
  ⟨exG_reachable, by decide +kernel⟩

/-! ### C06 -/

/-- **C06.** For two different nodes, `has_edge` is exactly membership in `edges()` in one of the two
directions, and `edges()` lists the edge once; `edges()` repeats no entry.  A self-loop is in `edges()` exactly when
the node lists itself twice as a neighbor (made by `add_edge`); listed once (converted from an adjacency list) it is
absent from `edges()`; it is never listed more often. -/
theorem C06_edges (g : DefaultGraph) (hg : g.Reachable) :
    (∀ s t, s ≠ t → (g.hasEdge s t = .ok true ↔ (s, t) ∈ g.edges ∨ (t, s) ∈ g.edges)) ∧
    (∀ s t, s ≠ t → g.edges.count (s, t) + g.edges.count (t, s) ≤ 1) ∧
    g.edges.Nodup ∧
    (∀ v l, g.neighbors v = .ok l → l.count v ≤ 2 ∧ ((v, v) ∈ g.edges ↔ l.count v = 2) ∧
      (g.hasEdge v v = .ok true ↔ 1 ≤ l.count v)) := by
  have hw := hg.wf
  have hs := hg.sym
  have key : ∀ s t, g.hasEdge s t = .ok true ↔ g.toI.Adj s t := by
    intro s t
    by_cases h1 : s ∈ g.nodes
    · by_cases h2 : t ∈ g.nodes
      · rw [hw.hasEdge_eq (hw.neighbors_eq h1) h2, ← GraphI.mem_nbr]; simp
      · rw [hw.hasEdge_err_right h1 h2]
        simp; exact fun hc => h2 (hs.adj_mem _ _ hc)
    · rw [hw.hasEdge_err_left h1]
      simp; exact fun hc => h1 (hw.adj_src hc)
  refine ⟨?_, hs.edges_once, hg.loopExact.nodup, ?_⟩
  · intro s t hne
    rw [key]
    constructor
    · exact hs.adj_edges s t hne
    · rintro (h | h)
      · exact hs.edges_adj _ _ h
      · exact hs.adj_symm _ _ (hs.edges_adj _ _ h)
  · intro v l hl
    have hn : g.toI.nbr v = l := GraphI.nbr_of_ok hl
    have := hg.loopExact.count v
    rw [hn] at this
    have hc1 : g.hasEdge v v = .ok true ↔ 1 ≤ l.count v := by
      rw [key, ← GraphI.mem_nbr, hn, ← List.count_pos_iff]; exact Iff.rfl
    rcases this with h | ⟨h, h'⟩ | ⟨h, h'⟩
    · refine ⟨by omega, ?_, hc1⟩
      constructor
      · intro hc
        have h2 : v ∈ g.toI.nbr v := GraphI.mem_nbr.2 (hs.edges_adj _ _ hc)
        rw [hn, ← List.count_pos_iff] at h2; omega
      · omega
    · exact ⟨by omega, by simp [h, h'], hc1⟩
    · exact ⟨by omega, by simp [h, h'], hc1⟩

/-- **C06**, the plain form: without converted self-loops `edges()` is exactly the `has_edge` relation. -/
theorem C06_edges_no_adjacency_loop (g : DefaultGraph) (hg : g.ReachableNoAdjLoop) (s t : Nat) :
    g.hasEdge s t = .ok true ↔ (s, t) ∈ g.edges ∨ (t, s) ∈ g.edges := by
  by_cases hne : s = t
  · subst hne
    have hr := hg.reachable
    constructor
    · intro h
      refine hg.edgeExact.adj_edges s s ?_
      by_cases h1 : s ∈ g.nodes
      · rw [hr.wf.hasEdge_eq (hr.wf.neighbors_eq h1) h1] at h
        exact GraphI.mem_nbr.1 (by simpa using h)
      · rw [hr.wf.hasEdge_err_left h1] at h; simp at h
    · intro h
      have ha : g.toI.Adj s s := by rcases h with h | h <;> exact hr.sym.edges_adj _ _ h
      have h1 := hr.wf.adj_src ha
      rw [hr.wf.hasEdge_eq (hr.wf.neighbors_eq h1) h1]
      have := GraphI.mem_nbr.2 ha
      simpa using this
  · exact (C06_edges g hg.reachable).1 s t hne

/-- The self-loop of a converted adjacency list is an edge for `has_edge` but not for `edges()`. -/
theorem C06_adjacency_loop_missing :
    ∃ g, tryFromAdjacency [[0]] = .ok g ∧ g.Reachable ∧ g.hasEdge 0 0 = .ok true ∧ g.edges = [] := by
  refine ⟨⟨[(0, 0)], [[0]], [0], []⟩, by decide +kernel, ?_, by decide +kernel, rfl⟩
  exact .fromAdjacency [[0]] _ (by decide +kernel)

example : exG.Reachable ∧ exG.ReachableNoAdjLoop ∧ exG.hasEdge 2 9 = .ok true ∧ (2, 9) ∈ exG.edges :=
  ⟨exG_reachable, exG_noAdjLoop, by decide +kernel⟩

/-! ### C07 -/

/-- **C07.** Handshake: the degrees add up to twice the size, plus one for each node that is listed exactly once as
its own neighbor (a self-loop converted from an adjacency list). -/
theorem C07_handshake (g : DefaultGraph) (hg : g.Reachable) :
    ∃ ds, g.nodes.mapM g.degree = .ok ds ∧
      ds.sum = 2 * g.size + g.nodes.countP (fun v => (g.toI.nbr v).count v == 1) := by
  refine ⟨g.nodes.map (fun v => (g.toI.nbr v).length), ?_, hg.handshake⟩
  have : ∀ l : List Nat, (∀ v ∈ l, v ∈ g.nodes) →
      l.mapM g.degree = .ok (l.map (fun v => (g.toI.nbr v).length)) := by
    intro l hl
    induction l with
    | nil => rfl
    | cons a l ih =>
      rw [List.mapM_cons, ih (fun v hv => hl v (by simp [hv])), hg.wf.degree_eq,
        hg.wf.neighbors_eq (hl a (by simp))]
      rfl
  exact this _ (fun _ h => h)

/-- **C07**, the plain form. -/
theorem C07_handshake_no_adjacency_loop (g : DefaultGraph) (hg : g.ReachableNoAdjLoop) :
    ∃ ds, g.nodes.mapM g.degree = .ok ds ∧ ds.sum = 2 * g.size := by
  obtain ⟨ds, h1, h2⟩ := C07_handshake g hg.reachable
  refine ⟨ds, h1, ?_⟩
  have : g.nodes.countP (fun v => (g.toI.nbr v).count v == 1) = 0 := by
    rw [List.countP_eq_zero]
    intro v _ hc
    have hc : (g.toI.nbr v).count v = 1 := by simpa using hc
    rcases hg.reachable.loopExact.count v with h | ⟨h, h'⟩ | ⟨h, h'⟩
    · omega
    · have : v ∈ g.toI.nbr v := by rw [← List.count_pos_iff]; omega
      rcases hg.edgeExact.adj_edges v v (GraphI.mem_nbr.1 this) with h3 | h3 <;> exact h' h3
    · omega
  omega

/-- With a converted self-loop the plain handshake fails. -/
theorem C07_adjacency_loop_breaks :
    ∃ g : DefaultGraph, g.Reachable ∧ g.nodes.mapM g.degree = .ok [1] ∧ g.size = 0 :=
  ⟨⟨[(0, 0)], [[0]], [0], []⟩, .fromAdjacency [[0]] _ (by decide +kernel), by decide +kernel, rfl⟩

example : exG.ReachableNoAdjLoop ∧ exG.nodes.mapM exG.degree = .ok [2, 2, 3, 1, 0] ∧ exG.size = 4 :=
  ⟨exG_noAdjLoop, by decide +kernel⟩

/-! ### C08 -/

/-- **C08.** After any sequence of `add_node` / `add_edge` calls on a new graph, `nodes()` and `edges()` are the
successfully added nodes and edges in order, and `neighbors(v)` lists the other endpoints of the edges at `v` in
the order the edges were added. -/
theorem C08_insertion_order (ops : List GraphOp) :
    let g := ops.foldl DefaultGraph.perform .new
    let log := ops.foldl GraphOp.log ([], [])
    g.nodes = log.1 ∧ g.edges = log.2 ∧
      (∀ v ∈ log.1, g.neighbors v = .ok (incident v log.2)) ∧
      (∀ v, v ∉ log.1 → g.neighbors v = .err (.missingNode v)) := by
  intro g log
  have h := logged_run ops
  have hn : g.nodes = log.1 := h.nodes
  have he : g.edges = log.2 := h.edges
  refine ⟨hn, he, ?_, ?_⟩
  · intro v hv; rw [← he]; exact h.good.2.2.1 v (by rw [← hn] at hv; exact hv)
  · intro v hv; rw [← hn] at hv; exact h.good.1.neighbors_err hv

/-- The log of the example history: what `C08` says about it is not empty. -/
example : ([GraphOp.node 4, .node 7, .node 4, .edge 4 7, .edge 7 4, .edge 1 4, .edge 7 7]).foldl GraphOp.log ([], []) =
    ([4, 7], [(4, 7), (7, 7)]) ∧ incident 7 [(4, 7), (7, 7)] = [4, 7, 7] := by decide +kernel

/-! ### C09, C10 -/

/-- **C09.** The adjacency conversion accepts exactly the valid adjacency lists, and reproduces them. -/
theorem C09_adjacency (adj : List (List Nat)) :
    ((∃ g, tryFromAdjacency adj = .ok g) ↔ ValidAdjacency adj) ∧
    ∀ g, tryFromAdjacency adj = .ok g →
      g.nodes = List.range adj.length ∧
      (∀ i row, adj[i]? = some row → g.neighbors i = .ok row) ∧
      g.edges = (adj.mapIdx rowEdges).flatten := by
  refine ⟨?_, ?_⟩
  · constructor
    · rintro ⟨g, hg⟩; exact (fromAdj_of_ok hg).valid
    · intro hv
      rcases tryFromAdjacency_cases adj with ⟨-, g, hg, -⟩ | ⟨e, ⟨s, pre, t, rest, h1, h2, -⟩, -⟩
      · exact ⟨g, hg⟩
      · exact absurd h2 ((validAdjacency_iff adj).1 hv s pre t rest e h1)
  · intro g hg
    have := fromAdj_of_ok hg
    exact ⟨this.nodes, fun i row hr => this.neighbors hr, this.edges⟩

example : tryFromAdjacency [[1], [0, 2], [1]] = .ok ⟨[(2, 2), (1, 1), (0, 0)], [[1], [0, 2], [1]], [0, 1, 2], [(0, 1), (1, 2)]⟩ := by
  decide +kernel

/-- **C10.** When the adjacency conversion does not succeed, the error is that of the first defective entry; it
never panics. -/
theorem C10_first_defect (adj : List (List Nat)) :
    (∃ g, tryFromAdjacency adj = .ok g) ∨ ∃ e, tryFromAdjacency adj = .err e ∧ FirstDefect adj e := by
  rcases tryFromAdjacency_cases adj with ⟨-, g, hg, -⟩ | ⟨e, h1, h2⟩
  · exact .inl ⟨g, hg⟩
  · exact .inr ⟨e, h2, h1⟩

/-- The error of C10 is unique: an adjacency list has at most one first defect. -/
theorem C10_first_defect_unique (adj : List (List Nat)) (e e' : Error)
    (h : FirstDefect adj e) (h' : FirstDefect adj e') : e = e' := by
  obtain ⟨s, pre, t, rest, h1, h2, h3, h4⟩ := h
  obtain ⟨s', pre', t', rest', h1', h2', h3', h4'⟩ := h'
  have hs : s = s' := by
    rcases Nat.lt_trichotomy s s' with h | h | h
    · exact absurd h2 (h3' s pre t rest e h h1)
    · exact h
    · exact absurd h2' (h3 s' pre' t' rest' e' h h1')
  subst hs
  rw [h1] at h1'
  have heq : pre ++ t :: rest = pre' ++ t' :: rest' := by simpa using h1'
  have : pre = pre' ∧ t = t' ∧ rest = rest' := by
    rcases List.append_eq_append_iff.1 heq with ⟨a, ha, hb⟩ | ⟨a, ha, hb⟩
    · cases a with
      | nil => simp at ha hb; exact ⟨ha.symm, hb.1, hb.2⟩
      | cons x a =>
        simp only [List.cons_append, List.cons.injEq] at hb
        obtain ⟨rfl, hb⟩ := hb
        exact absurd (hb ▸ h2) (h4' pre t a e ha)
    · cases a with
      | nil => simp at ha hb; exact ⟨ha, hb.1.symm, hb.2.symm⟩
      | cons x a =>
        simp only [List.cons_append, List.cons.injEq] at hb
        obtain ⟨rfl, hb⟩ := hb
        exact absurd (hb ▸ h2') (h4 pre' t' a e' ha)
  obtain ⟨rfl, rfl, rfl⟩ := this
  cases e <;> cases e' <;> simp only [EntryDefect] at h2 h2' <;> first
    | exact absurd h2.2.2.2 h2'.2.2.2.1
    | exact absurd h2'.2.2.2 h2.2.2.2.1
    | (exfalso; omega)
    | (simp only [h2.1, h2'.1, h2.2.1, h2'.2.1]; done)
    | (simp only [h2.1, h2'.1]; done)

example : tryFromAdjacency [[1, 2], [0, 0], [5]] = .err (.missingEdge 2 0) := by decide +kernel
example : tryFromAdjacency [[1], [0, 0], [5]] = .err (.duplicateEdge 1 0) := by decide +kernel

/-! ### C11 -/

/-- **C11.** The edge-list conversion succeeds exactly when no two entries join the same two nodes; then `edges()` is
the list, `nodes()` the ids in order of first appearance and `neighbors` lists the entries at a node in order;
otherwise the error names the first entry that repeats an earlier one.  It never panics. -/
theorem C11_edge_list (es : List (Nat × Nat)) :
    (es.Pairwise (fun e f => ¬ SameEdge e f) ∧ ∃ g, tryFromEdges es = .ok g ∧ g.edges = es ∧
      g.nodes = (endpoints es).eraseDups ∧ ∀ v ∈ endpoints es, g.neighbors v = .ok (incident v es)) ∨
    (∃ pre e post, es = pre ++ e :: post ∧ pre.Pairwise (fun e f => ¬ SameEdge e f) ∧
      (∃ f ∈ pre, SameEdge f e) ∧ tryFromEdges es = .err (.duplicateEdge e.1 e.2)) := by
  rcases tryFromEdges_aux es [] (Good.new ⟨ordered_new, edgeExact_new⟩) (by simp [endpoints, DefaultGraph.new])
    rfl List.Pairwise.nil with ⟨h1, g, h2, h3, h4, h5⟩ | ⟨mid, e, post, h1, h2, h3, h4⟩
  · left
    simp only [List.nil_append] at h1 h4 h5
    refine ⟨h1, g, h2, h5, h4, ?_⟩
    intro v hv
    have := h3.2.2.1 v (by rw [h4, List.mem_eraseDups]; exact hv)
    rwa [h5] at this
  · right
    simp only [List.nil_append] at h2 h3
    exact ⟨mid, e, post, h1, h2, h3, h4⟩

example : ∃ g, tryFromEdges [(3, 1), (1, 2), (0, 3)] = .ok g ∧ g.nodes = [3, 1, 2, 0] :=
  ⟨((DefaultGraph.new.perform (.node 3)).perform (.node 1) |>.perform (.edge 3 1) |>.perform (.node 2)
    |>.perform (.edge 1 2) |>.perform (.node 0) |>.perform (.edge 0 3)), by decide +kernel, by decide +kernel⟩
example : tryFromEdges [(3, 1), (1, 2), (1, 3)] = .err (.duplicateEdge 1 3) := by decide +kernel

/-! ### C12 -/

/-- **C12.** `==` never panics and holds exactly when both graphs have the same node set and the same `has_edge`
relation. -/
theorem C12_eq (g h : DefaultGraph) (hg : g.ReachableNoAdjLoop) (hh : h.ReachableNoAdjLoop) :
    ∃ b, g.eq h = .ok b ∧ (b = true ↔ (∀ v, g.hasNode v = h.hasNode v) ∧
      ∀ u v, g.hasEdge u v = .ok true ↔ h.hasEdge u v = .ok true) := by
  have rg := hg.reachable
  have rh := hh.reachable
  obtain ⟨b, h1, h2⟩ := eq_iff rg.wf rg.sym hg.edgeExact rh.wf rh.sym hh.edgeExact
  have key : ∀ (k : DefaultGraph), k.Reachable → ∀ u v, k.hasEdge u v = .ok true ↔ k.toI.Adj u v := by
    intro k hk u v
    by_cases hu : u ∈ k.nodes
    · rw [← GraphI.mem_nbr]
      have := (C04_undirected k hk).2.1 u v _ (hk.wf.neighbors_eq hu)
      exact this.symm
    · rw [hk.wf.hasEdge_err_left hu]
      simp; exact fun hc => hu (hk.wf.adj_src hc)
  refine ⟨b, h1, h2.trans ?_⟩
  refine and_congr ?_ ?_
  · constructor
    · intro hn v; rw [Bool.eq_iff_iff, rg.wf.hasNode_iff, rh.wf.hasNode_iff]; exact hn v
    · intro hn v; rw [← rg.wf.hasNode_iff, ← rh.wf.hasNode_iff, hn v]
  · constructor
    · intro ha u v; rw [key g rg, key h rh]; exact ha u v
    · intro ha u v; rw [← key g rg, ← key h rh]; exact ha u v

/-- **C12**, consequence: `==` is an equivalence relation. -/
theorem C12_eq_equivalence :
    (∀ g : DefaultGraph, g.ReachableNoAdjLoop → g.eq g = .ok true) ∧
    (∀ g h : DefaultGraph, g.ReachableNoAdjLoop → h.ReachableNoAdjLoop → g.eq h = h.eq g) ∧
    (∀ g h k : DefaultGraph, g.ReachableNoAdjLoop → h.ReachableNoAdjLoop → k.ReachableNoAdjLoop →
      g.eq h = .ok true → h.eq k = .ok true → g.eq k = .ok true) := by
  refine ⟨?_, ?_, ?_⟩
  · intro g hg
    obtain ⟨b, h1, h2⟩ := C12_eq g g hg hg
    rw [h1, h2.2 (by simp)]
  · intro g h hg hh
    obtain ⟨b, h1, h2⟩ := C12_eq g h hg hh
    obtain ⟨c, h3, h4⟩ := C12_eq h g hh hg
    rw [h1, h3]
    congr 1
    rw [Bool.eq_iff_iff, h2, h4]
    constructor
    · rintro ⟨a, b⟩; exact ⟨fun v => (a v).symm, fun u v => (b u v).symm⟩
    · rintro ⟨a, b⟩; exact ⟨fun v => (a v).symm, fun u v => (b u v).symm⟩
  · intro g h k hg hh hk e1 e2
    obtain ⟨b, h1, h2⟩ := C12_eq g h hg hh
    obtain ⟨c, h3, h4⟩ := C12_eq h k hh hk
    obtain ⟨d, h5, h6⟩ := C12_eq g k hg hk
    rw [e1] at h1; rw [e2] at h3
    cases h1; cases h3
    have a := h2.1 rfl
    have b := h4.1 rfl
    rw [h5, h6.2 ⟨fun v => (a.1 v).trans (b.1 v), fun u v => (a.2 u v).trans (b.2 u v)⟩]

/-- On all reachable graphs: `==` never panics, and what it decides. -/
theorem C12_eq_general (g h : DefaultGraph) (hg : g.Reachable) (hh : h.Reachable) :
    ∃ b, g.eq h = .ok b ∧ (b = true ↔ g.size = h.size ∧ (∀ v, v ∈ g.nodes ↔ v ∈ h.nodes) ∧
      ∀ e ∈ g.edges, h.hasEdge e.1 e.2 = .ok true) := by
  obtain ⟨b, h1, h2⟩ := eq_cases hg.wf hg.sym hh.wf
  refine ⟨b, h1, h2.trans ?_⟩
  refine and_congr Iff.rfl (and_congr Iff.rfl (forall_congr' fun e => forall_congr' fun he => ?_))
  by_cases hu : e.1 ∈ h.nodes
  · rw [← GraphI.mem_nbr]
    exact (C04_undirected h hh).2.1 e.1 e.2 _ (hh.wf.neighbors_eq hu)
  · rw [hh.wf.hasEdge_err_left hu]
    simp; exact fun hc => hu (hh.wf.adj_src hc)

/-- With a self-loop from an adjacency list `==` is not symmetric. -/
theorem C12_adjacency_loop_asymmetric :
    ∃ g h : DefaultGraph, g.Reachable ∧ h.Reachable ∧ g.eq h = .ok true ∧ h.eq g = .ok false := by
  refine ⟨((DefaultGraph.new.perform (.node 0)).perform (.node 1)).perform (.edge 0 0),
    ⟨[(1, 1), (0, 0)], [[0, 1], [0]], [0, 1], [(0, 1)]⟩, ?_, ?_, by decide +kernel, by decide +kernel⟩
  · exact .addEdge _ 0 0 (.addNode _ 1 (.addNode _ 0 .new))
  · exact .fromAdjacency [[0, 1], [0]] _ (by decide +kernel)

example : ∃ h : DefaultGraph, exG.ReachableNoAdjLoop ∧ h.ReachableNoAdjLoop ∧ h.nodes ≠ exG.nodes ∧
    exG.eq h = .ok true := by
  refine ⟨[GraphOp.node 9, .node 2, .node 7, .edge 9 2, .node 4, .edge 4 2, .edge 2 7, .edge 7 4, .node 5].foldl
    DefaultGraph.perform .new, exG_noAdjLoop, ?_, by decide +kernel, by decide +kernel⟩
  simp only [List.foldl, DefaultGraph.perform]
  repeat (first | exact .new | apply DefaultGraph.ReachableNoAdjLoop.addNode
                | apply DefaultGraph.ReachableNoAdjLoop.addEdge)

/-! ### C13 -/

/-- **C13**, edge lists: converting `edges()` of a graph without isolated nodes gives an equal graph. -/
theorem C13_round_trip_edges (g : DefaultGraph) (hg : g.ReachableNoAdjLoop)
    (hi : ∀ v ∈ g.nodes, ∃ e ∈ g.edges, v = e.1 ∨ v = e.2) :
    ∃ h, tryFromEdges g.edges = .ok h ∧ h.edges = g.edges ∧ g.eq h = .ok true ∧ h.eq g = .ok true := by
  have rg := hg.reachable
  have hpw : g.edges.Pairwise (fun e f => ¬ SameEdge e f) := by
    have := hg.edgeExact.nodup_canon rg.sym
    rw [List.Nodup, List.pairwise_map] at this
    exact this.imp (fun hne hs => hne ((canon_eq_iff _ _).2 hs))
  rcases C11_edge_list g.edges with ⟨-, h, h1, h2, h3, -⟩ | ⟨pre, e, post, h1, -, ⟨f, hf, hs⟩, -⟩
  · have hh : h.ReachableNoAdjLoop := .fromEdges _ _ h1
    have rh := hh.reachable
    have hn : ∀ v, v ∈ g.nodes ↔ v ∈ h.nodes := by
      intro v
      rw [h3, List.mem_eraseDups]
      unfold endpoints
      simp only [List.mem_flatMap, List.mem_cons, List.not_mem_nil, or_false]
      constructor
      · exact hi v
      · rintro ⟨e, he, (rfl | rfl)⟩
        · exact rg.wf.adj_src (rg.sym.edges_adj _ _ he)
        · exact rg.sym.adj_mem _ _ (rg.sym.edges_adj _ _ he)
    have key : g.eq h = .ok true := by
      obtain ⟨b, e1, e2⟩ := eq_cases rg.wf rg.sym rh.wf
      rw [e1, e2.2 ⟨by simp [DefaultGraph.size, h2], hn, fun e he => rh.sym.edges_adj _ _ (by rw [h2]; exact he)⟩]
    exact ⟨h, h1, h2, key, by rw [← C12_eq_equivalence.2.1 g h hg hh]; exact key⟩
  · exfalso
    rw [h1, List.pairwise_append] at hpw
    exact hpw.2.2 f hf e (by simp) hs

/-- **C13**, adjacency lists: converting the list of neighbor lists of a graph whose nodes are `0, …, n-1` in order
(and whose `edges()` contains no self-loop) gives an equal graph with the same neighbor order. -/
theorem C13_round_trip_adjacency (g : DefaultGraph) (hg : g.Reachable) (n : Nat)
    (hn : g.nodes = List.range n) (hl : ∀ v, (v, v) ∉ g.edges) (adj : List (List Nat))
    (hadj : g.nodes.mapM g.neighbors = .ok adj) :
    ∃ h, tryFromAdjacency adj = .ok h ∧ (∀ v, h.neighbors v = g.neighbors v) ∧
      g.eq h = .ok true ∧ h.eq g = .ok true := by
  have hw := hg.wf
  have hs := hg.sym
  have hadj' : adj = g.nodes.map g.toI.nbr := by
    have : ∀ l : List Nat, (∀ v ∈ l, v ∈ g.nodes) → l.mapM g.neighbors = .ok (l.map g.toI.nbr) := by
      intro l hl
      induction l with
      | nil => rfl
      | cons a l ih =>
        rw [List.mapM_cons, ih (fun v hv => hl v (by simp [hv])), hw.neighbors_eq (hl a (by simp))]
        rfl
    rw [this _ (fun _ h => h)] at hadj
    cases hadj; rfl
  have hlen : adj.length = n := by rw [hadj', hn]; simp
  have hrow : ∀ i row, adj[i]? = some row → i < n ∧ row = g.toI.nbr i := by
    intro i row h
    have hi : i < n := by rw [← hlen]; exact (List.getElem?_eq_some_iff.1 h).1
    rw [hadj', hn, List.getElem?_map, List.getElem?_range hi] at h
    exact ⟨hi, by simpa using h.symm⟩
  have hmem : ∀ v, v ∈ g.nodes ↔ v < n := by intro v; rw [hn, List.mem_range]
  have hv : ValidAdjacency adj := by
    refine ⟨?_, ?_, ?_⟩
    · intro i row hr t ht
      obtain ⟨-, rfl⟩ := hrow i row hr
      rw [hlen, ← hmem]; exact hs.adj_mem i t (GraphI.mem_nbr.1 ht)
    · intro i row hr
      obtain ⟨hi, rfl⟩ := hrow i row hr
      rw [List.nodup_iff_count_le_one]
      intro v
      by_cases hvi : i = v
      · subst hvi
        rcases hg.loopExact.count i with h | ⟨h, -⟩ | ⟨-, h⟩
        · omega
        · omega
        · exact absurd h (hl i)
      · exact hs.neighbor_once i v _ (hw.neighbors_eq ((hmem i).2 hi)) hvi
    · intro i row hr t ht row' hr'
      obtain ⟨-, rfl⟩ := hrow i row hr
      obtain ⟨-, rfl⟩ := hrow t row' hr'
      exact GraphI.mem_nbr.2 (hs.adj_symm _ _ (GraphI.mem_nbr.1 ht))
  obtain ⟨h, hh⟩ := (C09_adjacency adj).1.2 hv
  have fh := fromAdj_of_ok hh
  have rh : h.Reachable := .fromAdjacency adj h hh
  have hnodes : h.nodes = g.nodes := by rw [fh.nodes, hlen, hn]
  have hnb : ∀ v, h.neighbors v = g.neighbors v := by
    intro v
    by_cases hv : v < n
    · have hr : adj[v]? = some (g.toI.nbr v) := by
        rw [hadj', hn, List.getElem?_map, List.getElem?_range hv]; rfl
      rw [fh.neighbors hr, hw.neighbors_eq ((hmem v).2 hv)]
    · have h1 : v ∉ g.nodes := by rw [hmem]; exact hv
      rw [hw.neighbors_err h1, fh.wf.neighbors_err (by rw [hnodes]; exact h1)]
  have hnbr : ∀ v, h.toI.nbr v = g.toI.nbr v := by
    intro v
    unfold GraphI.nbr
    show (match h.neighbors v with | .ok l => l | _ => []) = (match g.neighbors v with | .ok l => l | _ => [])
    rw [hnb v]
  have hadjeq : ∀ u v, h.toI.Adj u v ↔ g.toI.Adj u v := by
    intro u v; rw [← GraphI.mem_nbr, ← GraphI.mem_nbr, hnbr]
  have hsize : g.size = h.size := by
    have a := hg.handshake
    have b := rh.handshake
    unfold Handshake at a b
    simp only [hnbr, hnodes] at b
    unfold DefaultGraph.size
    omega
  refine ⟨h, hh, hnb, ?_, ?_⟩
  · obtain ⟨b, e1, e2⟩ := eq_cases hw hs rh.wf
    rw [e1, e2.2 ⟨hsize, fun v => by rw [hnodes], fun e he => (hadjeq _ _).2 (hs.edges_adj _ _ he)⟩]
  · obtain ⟨b, e1, e2⟩ := eq_cases rh.wf rh.sym hw
    rw [e1, e2.2 ⟨hsize.symm, fun v => by rw [hnodes], fun e he => (hadjeq _ _).1 (rh.sym.edges_adj _ _ he)⟩]

example : ∃ g : DefaultGraph, g.ReachableNoAdjLoop ∧ g.nodes = List.range 4 ∧ (∀ v, (v, v) ∉ g.edges) ∧
    (∀ v ∈ g.nodes, ∃ e ∈ g.edges, v = e.1 ∨ v = e.2) ∧
    g.nodes.mapM g.neighbors = .ok [[2, 3], [3], [0], [0, 1]] := by
  refine ⟨[GraphOp.node 0, .node 1, .node 2, .node 3, .edge 2 0, .edge 0 3, .edge 1 3].foldl
    DefaultGraph.perform .new, ?_, by decide +kernel, ?_, by decide +kernel, by decide +kernel⟩
  · simp only [List.foldl, DefaultGraph.perform]
    repeat (first | exact .new | apply DefaultGraph.ReachableNoAdjLoop.addNode
                  | apply DefaultGraph.ReachableNoAdjLoop.addEdge)
  · have : (([GraphOp.node 0, .node 1, .node 2, .node 3, .edge 2 0, .edge 0 3, .edge 1 3].foldl
      DefaultGraph.perform .new).edges) = [(2, 0), (0, 3), (1, 3)] := by decide +kernel
    intro v; rw [this]; simp; omega

/-- **C13**, edge lists of any graph: converting `edges()` always succeeds and gives a graph with the same `edges()`; the graph compares
equal to that one exactly if each of its nodes is an end of an item of `edges()`. -/
theorem C13_round_trip_edges_iff (g : DefaultGraph) (hg : g.Reachable) :
    ∃ h, tryFromEdges g.edges = .ok h ∧ h.edges = g.edges ∧
      (g.eq h = .ok true ↔ ∀ v ∈ g.nodes, ∃ e ∈ g.edges, v = e.1 ∨ v = e.2) := by
  have hC := C06_edges g hg
  have hpw : g.edges.Pairwise (fun e f => ¬ SameEdge e f) := by
    have hnd := hC.2.2.1
    rw [List.pairwise_iff_getElem]
    intro i j hi hj hij hs
    have hne : g.edges[i] ≠ g.edges[j] := fun e => by
      have := (hnd.getElem_inj_iff).1 e; omega
    rcases hs with ⟨a, b⟩ | ⟨a, b⟩
    · exact hne (Prod.ext a b)
    · by_cases hst : g.edges[i].1 = g.edges[i].2
      · exact hne (Prod.ext (by rw [hst, b]) (by rw [← hst, a]))
      · have h1 : 1 ≤ g.edges.count (g.edges[i].1, g.edges[i].2) := List.one_le_count_iff.2 (List.getElem_mem hi)
        have h2 : 1 ≤ g.edges.count (g.edges[i].2, g.edges[i].1) := List.one_le_count_iff.2 (by rw [a, b]; exact List.getElem_mem hj)
        have := hC.2.1 _ _ hst
        omega
  rcases C11_edge_list g.edges with ⟨-, h, h1, h2, h3, -⟩ | ⟨pre, e, post, h1, -, ⟨f, hf, hs⟩, -⟩
  · have rh : h.Reachable := .fromEdges _ _ h1
    refine ⟨h, h1, h2, ?_⟩
    obtain ⟨b, e1, e2⟩ := eq_cases hg.wf hg.sym rh.wf
    have hb : g.eq h = .ok true ↔ b = true := by rw [e1]; simp
    have hm : ∀ v, v ∈ h.nodes ↔ ∃ e ∈ g.edges, v = e.1 ∨ v = e.2 := by
      intro v
      rw [h3, List.mem_eraseDups]
      unfold endpoints
      simp only [List.mem_flatMap, List.mem_cons, List.not_mem_nil, or_false]
    rw [hb, e2]
    constructor
    · rintro ⟨-, hn, -⟩ v hv
      exact (hm v).1 ((hn v).1 hv)
    · intro hi
      refine ⟨by simp [DefaultGraph.size, h2], fun v => ?_, fun e he => rh.sym.edges_adj _ _ (by rw [h2]; exact he)⟩
      rw [hm]
      refine ⟨hi v, ?_⟩
      rintro ⟨e, he, (rfl | rfl)⟩
      · exact hg.wf.adj_src (hg.sym.edges_adj _ _ he)
      · exact hg.sym.adj_mem _ _ (hg.sym.edges_adj _ _ he)
  · exfalso
    rw [h1, List.pairwise_append] at hpw
    exact hpw.2.2 f hf e (by simp) hs

/-- **C13**, adjacency lists with self-loops: if `edges()` contains a self-loop (made by `add_edge`, so listed twice), converting the
neighbor lists fails with `DuplicateEdge(v, v)` for the first such node. -/
theorem C13_round_trip_adjacency_fails (g : DefaultGraph) (hg : g.Reachable) (n : Nat) (hn : g.nodes = List.range n)
    (adj : List (List Nat)) (hadj : g.nodes.mapM g.neighbors = .ok adj) (v : Nat) (hv : (v, v) ∈ g.edges)
    (hmin : ∀ u, u < v → (u, u) ∉ g.edges) : tryFromAdjacency adj = .err (.duplicateEdge v v) := by
  have hw := hg.wf
  have hs := hg.sym
  have hadj' : adj = g.nodes.map g.toI.nbr := by
    have : ∀ l : List Nat, (∀ v ∈ l, v ∈ g.nodes) → l.mapM g.neighbors = .ok (l.map g.toI.nbr) := by
      intro l hl
      induction l with
      | nil => rfl
      | cons a l ih =>
        rw [List.mapM_cons, ih (fun v hv => hl v (by simp [hv])), hw.neighbors_eq (hl a (by simp))]
        rfl
    rw [this _ (fun _ h => h)] at hadj
    cases hadj; rfl
  have hlen : adj.length = n := by rw [hadj', hn]; simp
  have hrow : ∀ i row, adj[i]? = some row → i < n ∧ row = g.toI.nbr i := by
    intro i row h
    have hi : i < n := by rw [← hlen]; exact (List.getElem?_eq_some_iff.1 h).1
    rw [hadj', hn, List.getElem?_map, List.getElem?_range hi] at h
    exact ⟨hi, by simpa using h.symm⟩
  have hmem : ∀ v, v ∈ g.nodes ↔ v < n := by intro v; rw [hn, List.mem_range]
  have hvn : v < n := (hmem v).1 (hw.adj_src (hs.edges_adj _ _ hv))
  have hrv : adj[v]? = some (g.toI.nbr v) := by rw [hadj', hn, List.getElem?_map, List.getElem?_range hvn]; rfl
  have hcount : ∀ u, u < n → ((u, u) ∈ g.edges ↔ (g.toI.nbr u).count u = 2) := fun u hu =>
    ((C06_edges g hg).2.2.2 u _ (hw.neighbors_eq ((hmem u).2 hu))).2.1
  rcases C10_first_defect adj with ⟨h, hh⟩ | ⟨e, he, s, pre, t, rest, hr, hd, h1, h2⟩
  · exfalso
    have hva := ((C09_adjacency adj).1.1 ⟨h, hh⟩).noRepeat v _ hrv
    have := (List.nodup_iff_count_le_one.1 hva) v
    have := (hcount v hvn).1 hv
    omega
  · obtain ⟨hsn, hrs⟩ := hrow s _ hr
    have ht : t ∈ g.toI.nbr s := by rw [← hrs]; simp
    rw [he]
    cases e with
    | missingNode x =>
      obtain ⟨-, h3⟩ := hd
      have := (hmem t).1 (hs.adj_mem s t (GraphI.mem_nbr.1 ht))
      omega
    | missingEdge a b =>
      obtain ⟨-, -, h3, -, h4⟩ := hd
      exfalso
      have htn : t < n := by omega
      exact h4 (g.toI.nbr t) (by rw [hadj', hn, List.getElem?_map, List.getElem?_range htn]; rfl)
        (GraphI.mem_nbr.2 (hs.adj_symm _ _ (GraphI.mem_nbr.1 ht)))
    | duplicateNode x => exact hd.elim
    | duplicateEdge a b =>
      obtain ⟨rfl, rfl, -, h4⟩ := hd
      have hc2 : 2 ≤ (g.toI.nbr a).count b := by
        rw [← hrs, List.count_append, List.count_cons_self]
        have : 1 ≤ rest.count b := List.one_le_count_iff.2 h4
        omega
      have hab : a = b := by
        by_contra hne
        have := hs.neighbor_once a b _ (hw.neighbors_eq ((hmem a).2 hsn)) hne
        omega
      subst hab
      have hloop : (a, a) ∈ g.edges := by
        rcases hg.loopExact.count a with h | ⟨h, -⟩ | ⟨-, h⟩
        · omega
        · omega
        · exact h
      have hav : a = v := by
        rcases Nat.lt_trichotomy a v with h | h | h
        · exact absurd hloop (hmin a h)
        · exact h
        · exfalso
          have hc := (hcount v hvn).1 hv
          have hvm : v ∈ g.toI.nbr v := List.count_pos_iff.1 (by omega)
          obtain ⟨pre', rest', e⟩ := List.append_of_mem hvm
          by_cases hx : v ∈ rest'
          · exact h1 v pre' v rest' (.duplicateEdge v v) h (by rw [hrv, e]) ⟨rfl, rfl, by omega, hx⟩
          · have hx' : v ∈ pre' := by
              rw [e, List.count_append, List.count_cons_self, List.count_eq_zero_of_not_mem hx] at hc
              exact List.count_pos_iff.1 (by omega)
            obtain ⟨p1, p2, rfl⟩ := List.append_of_mem hx'
            exact h1 v p1 v (p2 ++ v :: rest') (.duplicateEdge v v) h (by rw [hrv, e]; simp) ⟨rfl, rfl, by omega, by simp⟩
      rw [hav]

/-- Cases: a graph with an isolated node does not compare equal to the conversion of its `edges()`; the neighbor lists of a graph with
self-loops at 1 and 2 are refused for the one at 1. -/
example : (∃ h, tryFromEdges exG.edges = .ok h ∧ exG.eq h = .ok false) ∧
    ∃ g : DefaultGraph, g.Reachable ∧ g.nodes = List.range 3 ∧ g.edges = [(2, 2), (0, 1), (1, 1)] ∧
      g.nodes.mapM g.neighbors = .ok [[1], [0, 1, 1], [2, 2]] ∧ tryFromAdjacency [[1], [0, 1, 1], [2, 2]] = .err (.duplicateEdge 1 1) := by
  refine ⟨?_, [GraphOp.node 0, .node 1, .node 2, .edge 2 2, .edge 0 1, .edge 1 1].foldl DefaultGraph.perform .new, ?_, by decide +kernel,
    by decide +kernel, by decide +kernel, by decide +kernel⟩
  · obtain ⟨h, h1, h2, h3⟩ := C13_round_trip_edges_iff exG exG_reachable
    refine ⟨h, h1, ?_⟩
    obtain ⟨b, e1, -⟩ := C12_eq_general exG h exG_reachable (.fromEdges _ _ h1)
    cases b with
    | false => exact e1
    | true => exact absurd (h3.1 e1) (by decide +kernel)
  · simp only [List.foldl, DefaultGraph.perform]
    repeat (first | exact .new | apply DefaultGraph.Reachable.addNode | apply DefaultGraph.Reachable.addEdge)

end Gamma
