import Verif.Props.Loops
/-
C75, C76, C77: `BreadthFirst`, `DepthFirst`, `components` and `greedy` on implementations of `Graph` that are not undirected
graphs.  For the traversals nothing is assumed of the graph: its `neighbors` may be one-way (a directed graph), list a node
several times, list nodes that are not in `nodes()`, and fail.
-/
namespace Gamma

/-! ### Examples -/

/-- A graph given by its nodes and their neighbors only; `neighbors` fails elsewhere, and the other methods answer nothing
useful. -/
def oneWay (adj : List (Nat × List Nat)) : GraphI where
  isEmpty := false
  order := 0
  size := 0
  nodes := adj.map Prod.fst
  neighbors := fun v => match adj.lookup v with | some l => .ok l | none => .err (.missingNode v)
  hasNode := fun _ => false
  degree := fun v => .err (.missingNode v)
  edges := []
  hasEdge := fun _ _ => .ok false

/-- An acyclic directed graph: 0 → 1, 2; 1 → 3; 2 → 1, 3; 4 → 2; and 3 lists itself. -/
def dagG : GraphI := oneWay [(0, [1, 2]), (1, [3]), (2, [1, 3]), (3, [3]), (4, [2])]

/-- A directed cycle 0 → 1 → 2 → 0 with a tail 0 → 3. -/
def cycG : GraphI := oneWay [(0, [1, 3]), (1, [2]), (2, [0]), (3, [])]

/-- 1 lists 5, which is not a node; and 0 lists 1 twice. -/
def brokenG : GraphI := oneWay [(0, [1, 1, 2]), (1, [5]), (2, [0])]

/-- Where following neighbors can lead, given a list closed under them. -/
theorem oneWay_leadsTo {g : GraphI} {root : Nat} (D : List Nat) (hr : root ∈ D) (hc : ∀ u ∈ D, ∀ v ∈ g.nbr u, v ∈ D) (v : Nat)
    (h : g.LeadsTo root v) : v ∈ D :=
  closed_leadsTo hr (fun u v hu ha => hc u hu v (GraphI.mem_nbr.2 ha)) h

theorem dagG_bfs : BreadthFirst.Run dagG 0 [⟨0, 1, false⟩, ⟨0, 2, false⟩, ⟨1, 3, false⟩, ⟨2, 3, true⟩, ⟨3, 3, true⟩] :=
  BreadthFirst.run_of_collect (fuel := 10) (by decide +kernel)

theorem dagG_dfs : DepthFirst.Run dagG 0 [⟨0, 1, false⟩, ⟨1, 3, false⟩, ⟨3, 3, true⟩, ⟨0, 2, false⟩, ⟨2, 1, true⟩, ⟨2, 3, true⟩] :=
  DepthFirst.run_of_collect (fuel := 10) (by decide +kernel)

theorem oneWay_nbr (adj : List (Nat × List Nat)) (v : Nat) (hv : v ∉ adj.map Prod.fst) : (oneWay adj).nbr v = [] := by
  have : adj.lookup v = none := by
    rw [List.lookup_eq_none_iff]
    intro p hp
    have : v ≠ p.1 := fun e => hv (List.mem_map.2 ⟨p, hp, e.symm⟩)
    simpa using this
  simp [oneWay, GraphI.nbr, this]

theorem oneWay_directed (adj : List (Nat × List Nat))
    (h : (adj.map Prod.fst).Nodup ∧ ∀ u ∈ adj.map Prod.fst, (adj.lookup u).isSome = true ∧
      ∀ v ∈ (oneWay adj).nbr u, v ∈ adj.map Prod.fst ∧ (u ≠ v → ((oneWay adj).nbr u).count v ≤ 1)) :
    (oneWay adj).Directed := by
  obtain ⟨h1, h2⟩ := h
  constructor
  · exact h1
  · intro v hv
    obtain ⟨hs, -⟩ := h2 v hv
    obtain ⟨l, hl⟩ := Option.isSome_iff_exists.1 hs
    exact ⟨l, by simp [oneWay, hl]⟩
  · intro u v hu ha
    exact ((h2 u hu).2 v (GraphI.mem_nbr.2 ha)).1
  · intro u v l hu hl hne
    rw [← GraphI.nbr_of_ok hl]
    by_cases hv : v ∈ (oneWay adj).nbr u
    · exact ((h2 u hu).2 v hv).2 hne
    · rw [List.count_eq_zero.2 hv]; omega

theorem dagG_nbr (v : Nat) (hv : v ∉ [0, 1, 2, 3, 4]) : dagG.nbr v = [] := oneWay_nbr _ v hv

theorem dagG_acyclic (C : List Nat) : ¬ DirectedCycle dagG C := by
  intro h
  -- a rank that grows along every edge between different nodes
  have key : ∀ u v, u ≠ v → dagG.Adj u v → [4, 0, 2, 1, 3].idxOf u < [4, 0, 2, 1, 3].idxOf v := by
    intro u v hne ha
    have hv := GraphI.mem_nbr.2 ha
    by_cases hu : u ∈ [0, 1, 2, 3, 4]
    · have := (by decide +kernel : ∀ u ∈ [0, 1, 2, 3, 4], ∀ v ∈ dagG.nbr u, u ≠ v →
        [4, 0, 2, 1, 3].idxOf u < [4, 0, 2, 1, 3].idxOf v)
      exact this u hu v hv hne
    · rw [dagG_nbr u hu] at hv; simp at hv
  exact h.no_rank _ key

/-! ### C75: breadth-first -/

/-- **C75, starting.**  Whatever the graph, a traversal can be started exactly where `neighbors` has an answer, and otherwise the
constructor returns the error of `neighbors`. -/
theorem C75_new (g : GraphI) (root : Nat) :
    ((∃ b, BreadthFirst.new g root = .ok b) ↔ ∃ l, g.neighbors root = .ok l) ∧
    ((∃ d, DepthFirst.new g root = .ok d) ↔ ∃ l, g.neighbors root = .ok l) ∧
    (∀ e, BreadthFirst.new g root = .err e ↔ g.neighbors root = .err e) ∧
    (∀ e, DepthFirst.new g root = .err e ↔ g.neighbors root = .err e) := by
  unfold BreadthFirst.new DepthFirst.new
  cases h : g.neighbors root <;> simp

/-- **C75, sound.**  Whatever the graph, and however far the traversal went: each step leads from a node discovered before to one
of its neighbors, `cut` tells whether that one was discovered before, no node is discovered twice, and only nodes to which
following `neighbors` leads from the root, and which have an answer to `neighbors`, are discovered. -/
theorem C75_bfs_sound (g : GraphI) (root : Nat) (steps : List Step) (h : BreadthFirst.Begins g root steps) :
    (∀ pre s post, steps = pre ++ s :: post →
      g.Adj s.sid s.tid ∧ s.sid ∈ discovered root pre ∧ (s.cut = true ↔ s.tid ∈ discovered root pre)) ∧
    (discovered root steps).Nodup ∧
    ∀ v ∈ discovered root steps, g.LeadsTo root v ∧ ∃ l, g.neighbors v = .ok l := by
  obtain ⟨b, b', -, -, hA⟩ := h.ainv
  exact ⟨fun pre s post e => ⟨hA.inv.step_adj (by rw [e]; simp), hA.inv.truth pre s post e⟩, hA.inv.truth.nodup,
    fun v hv => ⟨hA.leadsTo v hv, hA.answered v hv⟩⟩

/-- **C75, failing calls.**  Whatever the graph, if the call of `next` after `steps` does not return, then there is an undiscovered
neighbor of a discovered node for which `neighbors` has no answer; if it answers `Err`, then the call panicked. -/
theorem C75_bfs_fails (g : GraphI) (root : Nat) (steps : List Step) (h : BreadthFirst.Begins g root steps)
    (hf : ¬ ∃ b os, BreadthFirst.new g root = .ok b ∧ calls (BreadthFirst.next g) (steps.length + 1) b = .ok os) :
    ∃ n, n ∉ discovered root steps ∧ (∃ p ∈ discovered root steps, g.Adj p n) ∧ (∀ l, g.neighbors n ≠ .ok l) ∧
      ∀ e, g.neighbors n = .err e → BreadthFirst.PanicsAfter g root steps "unwrap" := by
  obtain ⟨b, b', hb, t, hA⟩ := h.ainv
  have hn : ∀ r, BreadthFirst.next g b' ≠ .ok r := by
    rintro ⟨o, b''⟩ hr
    refine hf ⟨b, steps.map some ++ [o], hb, ?_⟩
    exact calls_trace_one t hr
  obtain ⟨n, h1, h2, h3, h4⟩ := hA.stuck hn
  exact ⟨n, h1, h2, h3, fun e he => ⟨h, b, hb, calls_trace_fail t (h4 e he)⟩⟩

/-- **C75, ends.**  If following `neighbors` leads from the root to finitely many nodes only, then the traversal ends exactly
when `neighbors` answers at each of them; and if it answers `Err` at some of them, but at the root, then the traversal panics. -/
theorem C75_bfs_ends_iff (g : GraphI) (root : Nat) (L : List Nat) (hL : ∀ v, g.LeadsTo root v → v ∈ L) :
    ((∃ steps, BreadthFirst.Run g root steps) ↔ ∀ v, g.LeadsTo root v → ∃ l, g.neighbors v = .ok l) ∧
    ((∃ l, g.neighbors root = .ok l) →
      (∀ v, g.LeadsTo root v → (∃ l, g.neighbors v = .ok l) ∨ ∃ e, g.neighbors v = .err e) →
      (∃ v e, g.LeadsTo root v ∧ g.neighbors v = .err e) →
      ∃ steps, BreadthFirst.PanicsAfter g root steps "unwrap") := by
  have fwd : (∃ steps, BreadthFirst.Run g root steps) → ∀ v, g.LeadsTo root v → ∃ l, g.neighbors v = .ok l := by
    rintro ⟨st, hr⟩ v hv
    obtain ⟨b, b', -, -, hA, hq⟩ := hr.ainv
    exact hA.answered v ((hA.closed hq v).2 hv)
  refine ⟨⟨fwd, fun h => ?_⟩, fun h0 h1 h2 => ?_⟩
  · obtain ⟨b, hb⟩ := (C75_new g root).1.2 (h root .refl)
    obtain ⟨st, b', t, hA, he | hs⟩ := BreadthFirst.run_or hb hL
    · exact ⟨st, b, hb, endsAfter_of_trace t he⟩
    · obtain ⟨n, -, ⟨p, hp, hpn⟩, h3, -⟩ := hA.stuck hs
      obtain ⟨l, hl⟩ := h n ((hA.leadsTo p hp).tail hpn)
      exact absurd hl (h3 l)
  · obtain ⟨b, hb⟩ := (C75_new g root).1.2 h0
    obtain ⟨st, b', t, hA, he | hs⟩ := BreadthFirst.run_or hb hL
    · obtain ⟨v, e, hv, hve⟩ := h2
      obtain ⟨l, hl⟩ := fwd ⟨st, b, hb, endsAfter_of_trace t he⟩ v hv
      rw [hve] at hl; simp at hl
    · obtain ⟨n, -, ⟨p, hp, hpn⟩, h3, h4⟩ := hA.stuck hs
      rcases h1 n ((hA.leadsTo p hp).tail hpn) with ⟨l, hl⟩ | ⟨e, he⟩
      · exact absurd hl (h3 l)
      · exact ⟨st, ⟨b, hb, calls_trace t⟩, b, hb, calls_trace_fail t (h4 e he)⟩

/-- **C75, complete.**  Whatever the graph, a traversal that ends discovers exactly the nodes to which following `neighbors` leads
from the root, those fewer steps away first, and each of them from a node one step nearer to the root. -/
theorem C75_bfs_discovers (g : GraphI) (root : Nat) (steps : List Step) (h : BreadthFirst.Run g root steps) :
    (∀ v, v ∈ discovered root steps ↔ g.LeadsTo root v) ∧
    (discovered root steps).Pairwise (fun x y => g.hops root x ≤ g.hops root y) ∧
    ∀ s ∈ steps, s.cut = false → g.hops root s.tid = g.hops root s.sid + 1 := by
  obtain ⟨b, b', -, -, hA, hq⟩ := h.ainv
  exact ⟨hA.closed hq, (hA.level_eq_hops hq).2, (hA.level_eq_hops hq).1⟩

/-- **C75, order.**  Whatever the graph, the steps of a traversal that ends are grouped by source in discovery order; for the
`i`-th discovered node `v` the targets are, in neighbor order, the neighbors of `v` other than the first `i` discovered nodes. -/
theorem C75_bfs_order (g : GraphI) (root : Nat) (steps : List Step) (h : BreadthFirst.Run g root steps) :
    steps.map (fun s => (s.sid, s.tid)) =
      ((discovered root steps).mapIdx (fun i v =>
        ((g.nbr v).filter (fun w => !((discovered root steps).take i).contains w)).map
          (fun w => (v, w)))).flatten := by
  obtain ⟨b, b', -, -, hA, hq⟩ := h.ainv
  have := hA.inv.pairs hq
  rw [hA.inv.nodes, BreadthFirst.queued_reverse] at this
  exact this

/-- The hypotheses of C75 hold for an acyclic directed graph, of which a traversal from 0 discovers 0, 1, 2, 3 but not 4, … -/
example : BreadthFirst.Run dagG 0 [⟨0, 1, false⟩, ⟨0, 2, false⟩, ⟨1, 3, false⟩, ⟨2, 3, true⟩, ⟨3, 3, true⟩] ∧
    BreadthFirst.Begins dagG 0 [⟨0, 1, false⟩, ⟨0, 2, false⟩] ∧ (∀ v, dagG.LeadsTo 0 v → v ∈ [0, 1, 2, 3]) ∧
    ¬ dagG.Lawful :=
  ⟨dagG_bfs, ⟨_, rfl, by decide +kernel⟩, oneWay_leadsTo _ (by decide) (by decide +kernel), fun h =>
    absurd (h.adj_symm 0 1 ⟨[1, 2], rfl, by decide⟩) (fun ⟨l, h1, h2⟩ => by
      have : l = [3] := by injection h1 with h1; exact h1.symm
      subst this; simp at h2)⟩

/-- … and for a graph with a dangling neighbor, where the traversal panics after three steps. -/
example : BreadthFirst.Begins brokenG 0 [⟨0, 1, false⟩, ⟨0, 1, true⟩, ⟨0, 2, false⟩] ∧
    (∀ v, brokenG.LeadsTo 0 v → v ∈ [0, 1, 2, 5]) ∧ (∃ l, brokenG.neighbors 0 = .ok l) ∧
    (∃ v e, brokenG.LeadsTo 0 v ∧ brokenG.neighbors v = .err e) ∧
    BreadthFirst.PanicsAfter brokenG 0 [⟨0, 1, false⟩, ⟨0, 1, true⟩, ⟨0, 2, false⟩] "unwrap" := by
  refine ⟨⟨_, rfl, by decide +kernel⟩, oneWay_leadsTo _ (by decide) (by decide +kernel), ⟨_, rfl⟩, ⟨5, _, ?_, rfl⟩,
    ⟨_, rfl, by decide +kernel⟩, ⟨_, rfl, by decide +kernel⟩⟩
  exact (Relation.ReflTransGen.single ⟨_, rfl, by decide⟩ : brokenG.LeadsTo 0 1).tail ⟨[5], rfl, by decide⟩

/-! ### C76: depth-first -/

/-- **C76, sound.**  Whatever the graph, and however far the traversal went: each step leads from a node discovered before to one
of its neighbors, `cut` tells whether that one was discovered before, the source is the node discovered last or one of its ancestors
in the tree of discovery steps, no node is discovered twice, and only nodes to which following `neighbors` leads from the root, and
which have an answer to `neighbors`, are discovered. -/
theorem C76_dfs_sound (g : GraphI) (root : Nat) (steps : List Step) (h : DepthFirst.Begins g root steps) :
    (∀ pre s post, steps = pre ++ s :: post →
      g.Adj s.sid s.tid ∧ s.sid ∈ discovered root pre ∧ (s.cut = true ↔ s.tid ∈ discovered root pre) ∧
      ∀ last, (discovered root pre).getLast? = some last → Ancestor pre s.sid last) ∧
    (discovered root steps).Nodup ∧
    ∀ v ∈ discovered root steps, g.LeadsTo root v ∧ ∃ l, g.neighbors v = .ok l := by
  obtain ⟨d, d', -, -, hW⟩ := h.winv
  refine ⟨fun pre s post e => ?_, hW.truth.nodup, fun v hv => ⟨hW.leadsTo v hv, hW.answered v hv⟩⟩
  have := hW.truth pre s post e
  exact ⟨hW.step_adj s (by rw [e]; simp), this.1, this.2, hW.back pre s post e⟩

/-- **C76, once.**  Whatever the graph, a step from `u` to `v` is made at most as often as `v` is listed as a neighbor of `u`, and
two different nodes are not joined by steps in both directions. -/
theorem C76_dfs_once (g : GraphI) (root : Nat) (steps : List Step) (h : DepthFirst.Begins g root steps) :
    (∀ u v, (steps.map (fun s => (s.sid, s.tid))).count (u, v) ≤ (g.nbr u).count v) ∧
    ∀ s ∈ steps, ∀ s' ∈ steps, s.sid = s'.tid → s.tid = s'.sid → s.sid = s.tid := by
  obtain ⟨d, d', hd, t, hW⟩ := h.winv
  refine ⟨fun u v => ?_, fun s hs s' hs' e1 e2 => ?_⟩
  · have h1 := hW.count u v
    have h2 : steps.map Step.pair = steps.map (fun s => (s.sid, s.tid)) := rfl
    rw [h2] at h1
    omega
  · by_contra hne
    refine DepthFirst.Begins.oneWay hd t s.sid s.tid hne ⟨List.mem_append_left _ (List.mem_map.2 ⟨s, hs, rfl⟩),
      List.mem_append_left _ (List.mem_map.2 ⟨s', hs', ?_⟩)⟩
    rw [e1, e2]; rfl

/-- **C76, failing calls.**  Whatever the graph, if the call of `next` after `steps` does not return, then there is an undiscovered
neighbor of a discovered node for which `neighbors` has no answer; if it answers `Err`, then the call panicked. -/
theorem C76_dfs_fails (g : GraphI) (root : Nat) (steps : List Step) (h : DepthFirst.Begins g root steps)
    (hf : ¬ ∃ d os, DepthFirst.new g root = .ok d ∧ calls (DepthFirst.next g) (steps.length + 1) d = .ok os) :
    ∃ n, n ∉ discovered root steps ∧ (∃ p ∈ discovered root steps, g.Adj p n) ∧ (∀ l, g.neighbors n ≠ .ok l) ∧
      ∀ e, g.neighbors n = .err e → DepthFirst.PanicsAfter g root steps "unwrap" := by
  obtain ⟨d, d', hd, t, hW⟩ := h.winv
  have hn : ∀ r, DepthFirst.next g d' ≠ .ok r := by
    rintro ⟨o, d''⟩ hr
    exact hf ⟨d, steps.map some ++ [o], hd, calls_trace_one t hr⟩
  obtain ⟨n, h1, h2, h3, h4⟩ := hW.stuck hn
  exact ⟨n, h1, h2, h3, fun e he => ⟨h, d, hd, calls_trace_fail t (h4 e he)⟩⟩

/-- **C76, ends.**  If following `neighbors` leads from the root to finitely many nodes only, then the traversal ends if
`neighbors` answers at each of them; and if it answers `Ok` or `Err` at each of them, and `Ok` at the root, then the traversal ends or
panics. -/
theorem C76_dfs_ends_or_panics (g : GraphI) (root : Nat) (L : List Nat) (hL : ∀ v, g.LeadsTo root v → v ∈ L) :
    ((∀ v, g.LeadsTo root v → ∃ l, g.neighbors v = .ok l) → ∃ steps, DepthFirst.Run g root steps) ∧
    ((∃ l, g.neighbors root = .ok l) →
      (∀ v, g.LeadsTo root v → (∃ l, g.neighbors v = .ok l) ∨ ∃ e, g.neighbors v = .err e) →
      (∃ steps, DepthFirst.Run g root steps) ∨ ∃ steps, DepthFirst.PanicsAfter g root steps "unwrap") := by
  refine ⟨fun h => ?_, fun h0 h1 => ?_⟩
  · obtain ⟨d, hd⟩ := (C75_new g root).2.1.2 (h root .refl)
    obtain ⟨st, d', t, hW, he | hs⟩ := DepthFirst.run_or hd hL
    · exact ⟨st, d, hd, endsAfter_of_trace t he⟩
    · obtain ⟨n, -, ⟨p, hp, hpn⟩, h3, -⟩ := hW.stuck hs
      obtain ⟨l, hl⟩ := h n ((hW.leadsTo p hp).tail hpn)
      exact absurd hl (h3 l)
  · obtain ⟨d, hd⟩ := (C75_new g root).2.1.2 h0
    obtain ⟨st, d', t, hW, he | hs⟩ := DepthFirst.run_or hd hL
    · exact .inl ⟨st, d, hd, endsAfter_of_trace t he⟩
    · obtain ⟨n, -, ⟨p, hp, hpn⟩, h3, h4⟩ := hW.stuck hs
      rcases h1 n ((hW.leadsTo p hp).tail hpn) with ⟨l, hl⟩ | ⟨e, he⟩
      · exact absurd hl (h3 l)
      · exact .inr ⟨st, ⟨d, hd, calls_trace t⟩, d, hd, calls_trace_fail t (h4 e he)⟩

/-- **C76, complete without cycles.**  Whatever the graph, if following `neighbors` leads from the root to no cycle of three or
more nodes, then a traversal that ends discovers exactly the nodes to which following `neighbors` leads from the root. -/
theorem C76_dfs_discovers_acyclic (g : GraphI) (root : Nat) (hac : ∀ C, DirectedCycle g C → ∀ v ∈ C, ¬ g.LeadsTo root v)
    (steps : List Step) (h : DepthFirst.Run g root steps) (v : Nat) : v ∈ discovered root steps ↔ g.LeadsTo root v :=
  DepthFirst.Run.complete hac h v

/-- On a directed cycle with a tail, the traversal loses the tail: the hypothesis of `C76_dfs_discovers_acyclic` is needed. -/
theorem C76_dfs_incomplete : ∃ (g : GraphI) (root v : Nat) (steps : List Step), g.Directed ∧ DirectedCycle g [0, 1, 2] ∧
    DepthFirst.Run g root steps ∧ g.Adj root v ∧ v ∉ discovered root steps := by
  refine ⟨cycG, 0, 3, [⟨0, 1, false⟩, ⟨1, 2, false⟩, ⟨2, 0, true⟩], oneWay_directed _ (by decide +kernel), ?_,
    DepthFirst.run_of_collect (fuel := 10) (by decide +kernel), ⟨[1, 3], rfl, by decide⟩, by decide⟩
  refine ⟨by decide, by decide, ?_, ?_⟩
  · refine List.IsChain.cons_cons ⟨_, rfl, by decide⟩ (List.IsChain.cons_cons ⟨_, rfl, by decide⟩ (.singleton _))
  · intro a b ha hb
    simp at ha hb; subst ha hb
    exact ⟨_, rfl, by decide⟩

/-- **C76, conversion.**  A depth-first traversal of a directed graph is converted to a graph with the discovered nodes in discovery
order (none if there is no step) and the steps' edges in order, with neighbors in the order of the steps, unless a node was reported as
its own neighbor twice: then the conversion fails with `DuplicateEdge`. -/
theorem C76_try_from (g : GraphI) (hg : g.Directed) (root : Nat) (hr : root ∈ g.nodes) :
    ∃ d steps, DepthFirst.new g root = .ok d ∧ DepthFirst.Run g root steps ∧
      (LoopsOnce steps → ∃ r : DefaultGraph, r.Reachable ∧
        r.nodes = (if steps = [] then [] else discovered root steps) ∧
        r.edges = steps.map (fun s => (s.sid, s.tid)) ∧
        (∀ v ∈ r.nodes, r.neighbors v = .ok (incident v (steps.map (fun s => (s.sid, s.tid))))) ∧
        ∀ fuel, steps.length < fuel → DefaultGraph.tryFromDfs g fuel d = .ok r) ∧
      (¬ LoopsOnce steps → ∃ v, 2 ≤ (steps.map (fun s => (s.sid, s.tid))).count (v, v) ∧
        ∀ fuel, steps.length < fuel → DefaultGraph.tryFromDfs g fuel d = .err (.duplicateEdge v v)) := by
  obtain ⟨d, steps, h1, h2, h3, h4⟩ := DepthFirst.directed_convert hg hr
  refine ⟨d, steps, h1, h2, fun hl => ?_, h4⟩
  obtain ⟨r, h5, h6⟩ := h3 hl
  exact ⟨r, h5.reachable, h6⟩

/-- The hypotheses of C76 hold for an acyclic directed graph, … -/
example : dagG.Directed ∧ 0 ∈ dagG.nodes ∧ (∀ C, DirectedCycle dagG C → ∀ v ∈ C, ¬ dagG.LeadsTo 0 v) ∧
    (∀ v, dagG.LeadsTo 0 v → v ∈ [0, 1, 2, 3]) ∧
    DepthFirst.Run dagG 0 [⟨0, 1, false⟩, ⟨1, 3, false⟩, ⟨3, 3, true⟩, ⟨0, 2, false⟩, ⟨2, 1, true⟩, ⟨2, 3, true⟩] ∧
    DepthFirst.Begins dagG 0 [⟨0, 1, false⟩, ⟨1, 3, false⟩] :=
  ⟨oneWay_directed _ (by decide +kernel), by decide, fun C hC => absurd hC (dagG_acyclic C),
    oneWay_leadsTo _ (by decide) (by decide +kernel), dagG_dfs, ⟨_, rfl, by decide +kernel⟩⟩

/-- … and for a graph with a dangling neighbor, where the traversal panics after one step. -/
example : DepthFirst.Begins brokenG 0 [⟨0, 1, false⟩] ∧
    (∀ v, brokenG.LeadsTo 0 v → v ∈ [0, 1, 2, 5]) ∧ (∃ l, brokenG.neighbors 0 = .ok l) ∧
    DepthFirst.PanicsAfter brokenG 0 [⟨0, 1, false⟩] "unwrap" :=
  ⟨⟨_, rfl, by decide +kernel⟩, oneWay_leadsTo _ (by decide) (by decide +kernel), ⟨_, rfl⟩,
    ⟨_, rfl, by decide +kernel⟩, ⟨_, rfl, by decide +kernel⟩⟩

/-! ### C77: components and greedy on directed graphs -/

/-- **C77, ends or panics.**  On a directed graph `components` ends after some list of graphs, or panics after it; and it ends if no node is
listed twice as its own neighbor. -/
theorem C77_components_ends (g : GraphI) (hg : g.Directed) :
    ((∀ v ∈ g.nodes, (g.nbr v).count v ≤ 1) → ∃! comps, Components.Run g comps) ∧
    ((∃ comps, Components.Run g comps) ∨
      ∃ (comps : List DefaultGraph) (N : Nat), ∀ fuel, N ≤ fuel →
        calls (Components.next g fuel) comps.length (Components.new g) = .ok (comps.map some) ∧
        calls (Components.next g fuel) (comps.length + 1) (Components.new g) = .panic "traversal error") := by
  have main := Components.run_or hg
  refine ⟨fun hl => ?_, ?_⟩
  · obtain ⟨rc, N, c', ⟨c'', hr, h1⟩ | ⟨root, hi, hc, h1⟩⟩ := main
    · refine ⟨rc.map Prod.snd, ⟨N, fun fuel hf => endsAfter_of_trace' (h1 fuel hf).1 (h1 fuel hf).2.1 (h1 fuel hf).2.2⟩, ?_⟩
      rintro cs' ⟨N', h'⟩
      exact endsAfter_unique (h' (max N N') (by omega)) (endsAfter_of_trace' (h1 (max N N') (by omega)).1
        (h1 (max N N') (by omega)).2.1 (h1 (max N N') (by omega)).2.2)
    · obtain ⟨st, h2, h3⟩ := hc.twice
      refine absurd (fun v => ?_) h3
      obtain ⟨d, d', -, -, hW, -⟩ := h2.winv
      by_cases hv : (v, v) ∈ st.map (fun s => (s.sid, s.tid))
      · obtain ⟨s, hs, e⟩ := List.mem_map.1 hv
        have hsid : s.sid = v := congrArg Prod.fst e
        have h4 := hW.count v v
        have h5 := hl v (hg.leadsTo hc.node (hsid ▸ hW.leadsTo _ (hW.truth.sid_mem hs)))
        have h6 : st.map Step.pair = st.map (fun s => (s.sid, s.tid)) := rfl
        rw [h6] at h4
        omega
      · rw [List.count_eq_zero.2 hv]; omega
  · obtain ⟨rc, N, c', ⟨c'', hr, h1⟩ | ⟨root, hi, hc, h1⟩⟩ := main
    · exact .inl ⟨rc.map Prod.snd, N, fun fuel hf => endsAfter_of_trace' (h1 fuel hf).1 (h1 fuel hf).2.1 (h1 fuel hf).2.2⟩
    · exact .inr ⟨rc.map Prod.snd, N, fun fuel hf => ⟨calls_trace (h1 fuel hf).1, calls_trace_fail (h1 fuel hf).1 (h1 fuel hf).2⟩⟩

/-- **C77, components.**  On a directed graph every component is what a depth-first traversal from its first node gives; it consists of
nodes to which following `neighbors` leads from its first node, and is connected; the components cover the graph; and the first node of each is
the first in `nodes()` that is in no earlier component. -/
theorem C77_components (g : GraphI) (hg : g.Directed) (comps : List DefaultGraph) (h : Components.Run g comps) :
    (∀ c ∈ comps, c.Reachable ∧ ∃ r steps, c.nodes.head? = some r ∧ DepthFirst.Run g r steps ∧ c.nodes = discovered r steps ∧
      c.edges = steps.map (fun s => (s.sid, s.tid)) ∧
      (∀ v ∈ c.nodes, v ∈ g.nodes ∧ g.LeadsTo r v ∧ c.toI.simple.Reachable r v)) ∧
    (∀ v ∈ g.nodes, ∃ c ∈ comps, v ∈ c.nodes) ∧
    comps.Pairwise (fun c c' => ∀ r, c'.nodes.head? = some r → r ∉ c.nodes) ∧
    (∀ l c l' r, comps = l ++ c :: l' → c.nodes.head? = some r → ∀ x, [x, r].Sublist g.nodes →
      ∃ c' ∈ l, x ∈ c'.nodes) := by
  obtain ⟨rc, hr, rfl⟩ := Components.run_iff hg h
  refine ⟨?_, ?_, ?_, ?_⟩
  · intro c hc
    obtain ⟨e, he, rfl⟩ := List.mem_map.1 hc
    have hi := hr.comp e he
    obtain ⟨st, h1, h2, h3⟩ := hi.run
    have hrn : e.1 ∈ g.nodes := hr.roots.subset (List.mem_map.2 ⟨e, he, rfl⟩)
    obtain ⟨d, d', -, -, hW, -⟩ := h1.winv
    refine ⟨hi.built.reachable, e.1, st, hi.head, h1, h2, h3, fun v hv => ?_⟩
    rw [h2] at hv
    have hv' := hW.leadsTo v hv
    refine ⟨hg.leadsTo hrn hv', hv', ?_⟩
    refine hW.truth.reachable_in e.2.toI.simple ?_ v hv
    intro s hs hc
    rw [hi.lawful.simple_adj]
    refine ⟨hW.truth.ne hs hc, ?_⟩
    rw [Components.adj_iff_edges hi.built, h3]
    exact .inl (List.mem_map.2 ⟨s, hs, rfl⟩)
  · intro v hv
    obtain ⟨e, he, hx⟩ := hr.cover v hv
    exact ⟨e.2, List.mem_map.2 ⟨e, he, rfl⟩, hx⟩
  · rw [List.pairwise_map]
    refine List.Pairwise.imp_of_mem ?_ hr.fresh
    intro a b ha hb hne r hrr
    rw [(hr.comp b hb).head] at hrr
    simp at hrr; subst hrr; exact hne
  · intro l c l' r he hh x hx
    obtain ⟨l1, l2, rfl, rfl, h2⟩ := List.map_eq_append_iff.1 he
    obtain ⟨e, l3, rfl, rfl, rfl⟩ := List.map_eq_cons_iff.1 h2
    rw [(hr.comp e (by simp)).head] at hh
    simp at hh; subst hh
    obtain ⟨e', he', hx'⟩ := hr.earlier l1 e l3 rfl x hx
    exact ⟨e'.2, List.mem_map.2 ⟨e', he', rfl⟩, hx'⟩

/-- **C77, acyclic.**  On a directed graph without cycles of three or more nodes, each component has exactly the nodes to which following
`neighbors` leads from its first node. -/
theorem C77_components_acyclic (g : GraphI) (hg : g.Directed) (hac : ∀ C, ¬ DirectedCycle g C) (comps : List DefaultGraph)
    (h : Components.Run g comps) (c : DefaultGraph) (hc : c ∈ comps) (r : Nat) (hr : c.nodes.head? = some r) (v : Nat) :
    v ∈ c.nodes ↔ g.LeadsTo r v := by
  obtain ⟨-, r', st, h1, h2, h3, -⟩ := (C77_components g hg comps h).1 c hc
  rw [hr] at h1; injection h1 with h1; subst h1
  rw [h3]
  exact C76_dfs_discovers_acyclic g r (fun C hC => absurd hC (hac C)) st h2 v

/-- **C77, greedy.**  On a directed graph `greedy` returns exactly when `components` ends, and otherwise panics; what it returns is a
symmetric pairing of nodes, of which one is listed as a neighbor of the other. -/
theorem C77_greedy (g : GraphI) (hg : g.Directed) :
    ((∃ p, GreedyReturns g p) ↔ ∃ comps, Components.Run g comps) ∧
    ((¬ ∃ p, GreedyReturns g p) → ∃ N, ∀ fuel, N ≤ fuel → greedy g fuel = .panic "traversal error") ∧
    ∀ p, GreedyReturns g p → p.Symmetric ∧
      ∀ x y, p.mate x = .ok y → x ∈ g.nodes ∧ y ∈ g.nodes ∧ (g.Adj x y ∨ g.Adj y x) := by
  obtain ⟨rc, N, ⟨hr, hrun, h1⟩ | ⟨root, c, hi, hc, hno, h2⟩⟩ := greedy_or hg
  · obtain ⟨s, e, i⟩ := foldComponents_in hg.eitherWay_symm rc hr.comp (fun e he _ _ ha => (hr.comp e he).adj_dir hg
      (hr.roots.subset (List.mem_map.2 ⟨e, he, rfl⟩)) ha) (h1 N (le_refl N)).2 (greedyInv_new g.eitherWay)
    have hN : greedy g N = .ok s.2 := by rw [(h1 N (le_refl N)).1, e]; rfl
    have hp := greedyReturns_of hN
    refine ⟨⟨fun _ => ⟨_, hrun⟩, fun _ => ⟨s.2, hp⟩⟩, fun h => absurd ⟨s.2, hp⟩ h, fun q hq => ?_⟩
    rw [hq.unique hp]
    refine ⟨i.sym, fun x y hxy => ?_⟩
    rcases hg.eitherWay_adj.1 (i.adj x y (Pairing.mate_eq_ok.1 hxy)) with ⟨h3, h4⟩ | ⟨h3, h4⟩
    · exact ⟨h3, hg.adj_mem _ _ h3 h4, .inl h4⟩
    · exact ⟨hg.adj_mem _ _ h3 h4, h3, .inr h4⟩
  · have hnr : ¬ ∃ p, GreedyReturns g p := by
      rintro ⟨p, M, hp⟩
      have := hp (max M N) (by omega)
      rw [h2 (max M N) (by omega)] at this; simp at this
    exact ⟨⟨fun h => absurd h hnr, fun h => absurd h hno⟩, fun _ => ⟨N, h2⟩, fun q hq => absurd ⟨q, hq⟩ hnr⟩

/-- The hypotheses of C77 hold for an acyclic directed graph, with two components that overlap. -/
example : dagG.Directed ∧ (∀ v ∈ dagG.nodes, (dagG.nbr v).count v ≤ 1) ∧ (∀ C, ¬ DirectedCycle dagG C) ∧
    ∃ c c' : DefaultGraph, Components.Run dagG [c, c'] ∧ c.nodes = [0, 1, 3, 2] ∧ c'.nodes = [4, 2, 1, 3] :=
  ⟨oneWay_directed _ (by decide +kernel), by decide +kernel, dagG_acyclic,
    ⟨[(2, 3), (3, 2), (1, 1), (0, 0)], [[1, 2], [0, 3, 2], [1, 3, 3, 2], [0, 1, 3]], [0, 1, 3, 2],
      [(0, 1), (1, 3), (3, 3), (0, 2), (2, 1), (2, 3)]⟩,
    ⟨[(3, 3), (1, 2), (2, 1), (4, 0)], [[2], [4, 1, 3], [2, 3], [1, 3, 3, 2]], [4, 2, 1, 3],
      [(4, 2), (2, 1), (1, 3), (3, 3), (2, 3)]⟩,
     Components.run_of_all (N := 10) (by decide +kernel), rfl, rfl⟩

end Gamma
