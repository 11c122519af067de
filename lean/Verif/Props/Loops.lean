import Verif.Props.Cycles
import Verif.Proofs.DfsLoops
import Verif.Proofs.GraphMore
/-
Self-loops: C69, and C27 and C30 for every graph.
-/
namespace Gamma
open Pairing

/-! ### C69 -/

/-- **C69, exactly.**  How often a depth-first traversal reports the self-loop at a node `u`.  If `u` is the root, and no
discovery meets it again, as often as `u` is listed as its own neighbor.  If `u` is discovered by the step `s`, and no later
discovery meets it again, as often as it is listed before its first neighbor that was already discovered and that it was not
discovered from.  And once a discovery has met `u` again, never. -/
theorem C69_dfs_loops (g : GraphI) (hg : g.Lawful) (root : Nat) (steps : List Step) (h : DepthFirst.Run g root steps) (u : Nat) :
    ((∀ pre s post, steps = pre ++ s :: post → ¬ DepthFirst.Closes g root pre s u) →
      (u = root → (steps.map (fun s => (s.sid, s.tid))).count (u, u) = (g.nbr u).count u) ∧
      (∀ pre s post, steps = pre ++ s :: post → s.cut = false → s.tid = u →
        (steps.map (fun s => (s.sid, s.tid))).count (u, u) = DepthFirst.loopsBefore g root pre s.sid u)) ∧
    (∀ pre s post, steps = pre ++ s :: post → DepthFirst.Closes g root pre s u →
      ∀ t ∈ s :: post, ¬ (t.sid = u ∧ t.tid = u)) := by
  obtain ⟨d, i, q⟩ := h.inv3 hg
  refine ⟨fun hc => ⟨?_, ?_⟩, ?_⟩
  · rintro rfl
    have := i.kept u _ (.root rfl) hc
    rw [q, List.count_nil, Nat.add_zero] at this
    exact this
  · intro pre s post e h1 h2
    have := i.kept u _ (.step pre s post e h1 h2) hc
    rw [q, List.count_nil, Nat.add_zero] at this
    exact this
  · intro pre s post e hc t ht ⟨e1, e2⟩
    exact (i.lost u pre s post e hc).1 (List.mem_map.2 ⟨t, ht, by simp [Step.pair, e1, e2]⟩)

/-- **C69, off cycles.**  The self-loop at a discovered node that lies on no cycle is reported exactly as often as it is
listed. -/
theorem C69_dfs_loops_off_cycles (g : GraphI) (hg : g.Lawful) (root : Nat) (steps : List Step)
    (h : DepthFirst.Run g root steps) (u : Nat) (hu : u ∈ discovered root steps) (hc : ¬ OnCycle g u) :
    (steps.map (fun s => (s.sid, s.tid))).count (u, u) = (g.nbr u).count u :=
  h.loops_full hg hu hc

/-! ### C27 and C30, every graph -/

theorem Components.all_panic {g : GraphI} {N : Nat} {c : Components} {cs : List DefaultGraph}
    (h : ∀ fuel, N ≤ fuel → Trace (Components.next g fuel) (Components.new g) cs c ∧
      Components.next g fuel c = .panic "traversal error") :
    ∀ fuel, N + cs.length + 1 ≤ fuel → Components.all g fuel = .panic "traversal error" := by
  intro fuel hf
  obtain ⟨t, e⟩ := h fuel (by omega)
  unfold Components.all collect
  rw [forLoop_of_trace_panic _ t e fuel (by omega), foldlM_ok (fun _ _ => rfl)]
  rfl

/-- **C27, every graph.**  `components` either ends after some list of graphs, or yields some graphs and then panics; the
latter exactly when the depth-first traversal from the first node in none of the graphs yielded so far reports some
self-loop twice. -/
theorem C27_ends_or_panics (g : GraphI) (hg : g.Lawful) :
    (∃ comps N, Components.Run g comps ∧ (∀ fuel, N ≤ fuel → Components.all g fuel = .ok comps) ∧
      ∀ c ∈ comps, c.edges.Nodup ∧ ∃ r steps, c.nodes.head? = some r ∧ DepthFirst.Run g r steps ∧ LoopsOnce steps) ∨
    (∃ (comps : List DefaultGraph) (N root : Nat) (steps : List Step),
      (∀ fuel, N ≤ fuel → calls (Components.next g fuel) comps.length (Components.new g) = .ok (comps.map some) ∧
        calls (Components.next g fuel) (comps.length + 1) (Components.new g) = .panic "traversal error" ∧
        Components.all g fuel = .panic "traversal error") ∧
      root ∈ g.nodes ∧ (∀ c ∈ comps, root ∉ c.nodes) ∧
      (∀ x, [x, root].Sublist g.nodes → ∃ c ∈ comps, x ∈ c.nodes) ∧
      DepthFirst.Run g root steps ∧ ¬ LoopsOnce steps) := by
  obtain ⟨rc, N, c', ⟨c'', hr, h1⟩ | ⟨root, hi, hc, h1⟩⟩ := Components.run_or hg.directed
  · left
    refine ⟨rc.map Prod.snd, N + rc.length + 1,
      ⟨N, fun fuel hf => endsAfter_of_trace' (h1 fuel hf).1 (h1 fuel hf).2.1 (h1 fuel hf).2.2⟩, fun fuel hf => ?_, ?_⟩
    · exact collect_of_trace (h1 fuel (by omega)).1 (h1 fuel (by omega)).2.1 fuel (by simp; omega)
    · intro c hc
      obtain ⟨e, he, rfl⟩ := List.mem_map.1 hc
      have hi := hr.comp e he
      obtain ⟨st, h2, h3, h4⟩ := hi.run
      have hnd := hi.built.reachable.loopExact.nodup
      refine ⟨hnd, e.1, st, hi.head, h2, fun v => ?_⟩
      have := List.nodup_iff_count_le_one.1 hnd (v, v)
      rw [h4] at this
      exact this
  · right
    obtain ⟨st, h2, h3⟩ := hc.twice
    refine ⟨rc.map Prod.snd, N + (rc.map Prod.snd).length + 1, root, st, fun fuel hf => ⟨?_, ?_, ?_⟩, hc.node, ?_, ?_, h2, h3⟩
    · exact calls_trace (h1 fuel (by omega)).1
    · exact Components.calls_panic (h1 fuel (by omega)).1 (h1 fuel (by omega)).2
    · exact Components.all_panic h1 fuel hf
    · intro c hc'
      obtain ⟨e, he, rfl⟩ := List.mem_map.1 hc'
      exact hc.fresh e he
    · intro x hx
      obtain ⟨e, he, h⟩ := hc.first x hx
      exact ⟨e.2, List.mem_map.2 ⟨e, he, rfl⟩, h⟩

/-- **C30, every graph.**  `greedy` returns exactly when `components` ends, and otherwise panics; whatever it returns is a
symmetric pairing whose pairs are edges. -/
theorem C30_returns_iff (g : GraphI) (hg : g.Lawful) :
    ((∃ p, GreedyReturns g p) ↔ ∃ comps, Components.Run g comps) ∧
    ((¬ ∃ p, GreedyReturns g p) → ∃ N, ∀ fuel, N ≤ fuel → greedy g fuel = .panic "traversal error") ∧
    ∀ p, GreedyReturns g p → p.Matches g := by
  have ret : ∀ rc N, Components.Result g rc → (∀ fuel, N ≤ fuel →
      greedy g fuel = ((rc.map Prod.snd).foldlM (greedyComponent fuel) ([], Pairing.new) >>= fun s => .ok s.2) ∧
      ∀ e ∈ rc, ∃ steps, DepthFirst.Run e.2.toI e.1 steps ∧ ∀ s, greedyComponent fuel s e.2 = steps.foldlM greedyStep s) →
      ∃ p, GreedyReturns g p ∧ p.Matches g := by
    intro rc N hr h1
    obtain ⟨s, e, i⟩ := foldComponents hg rc hr.comp (h1 N (le_refl N)).2 (greedyInv_new g)
    have hN : greedy g N = .ok s.2 := by rw [(h1 N (le_refl N)).1, e]; rfl
    exact ⟨s.2, greedyReturns_of hN, matches_of i.sym i.adj⟩
  obtain ⟨rc, N, ⟨hr, hrun, h1⟩ | ⟨root, c, hi, hc, hno, h2⟩⟩ := greedy_or hg.directed
  · obtain ⟨p, hp, hm⟩ := ret rc N hr h1
    exact ⟨⟨fun _ => ⟨_, hrun⟩, fun _ => ⟨p, hp⟩⟩, fun h => absurd ⟨p, hp⟩ h, fun q hq => by rw [hq.unique hp]; exact hm⟩
  · have hnr : ¬ ∃ p, GreedyReturns g p := by
      rintro ⟨p, M, hp⟩
      have := hp (max M N) (by omega)
      rw [h2 (max M N) (by omega)] at this; simp at this
    exact ⟨⟨fun h => absurd h hnr, fun h => absurd h hno⟩, fun _ => ⟨N, h2⟩, fun q hq => absurd ⟨q, hq⟩ hnr⟩

/-- **C69, panics.**  If a node that lies on no cycle is listed twice as its own neighbor, then `components` panics, and so
does `greedy`. -/
theorem C69_components_panic (g : GraphI) (hg : g.Lawful) (u : Nat) (hu : 2 ≤ (g.nbr u).count u) (hc : ¬ OnCycle g u) :
    ∃ N, ∀ fuel, N ≤ fuel →
      Components.all g fuel = .panic "traversal error" ∧ greedy g fuel = .panic "traversal error" := by
  have hun : u ∈ g.nodes := hg.adj_src (GraphI.mem_nbr.1 (List.count_pos_iff.1 (lt_of_lt_of_le Nat.zero_lt_two hu)))
  have hno : ¬ ∃ comps, Components.Run g comps := by
    rintro ⟨comps, h⟩
    obtain ⟨rc, hr, -⟩ := Components.run_iff hg.directed h
    obtain ⟨e, he, hx⟩ := hr.cover u hun
    have hi := hr.comp e he
    obtain ⟨st, h2, h3, h4⟩ := hi.run
    have hnd := List.nodup_iff_count_le_one.1 hi.built.reachable.loopExact.nodup (u, u)
    rw [h4, h2.loops_full hg (by rw [← h3]; exact hx) hc] at hnd
    omega
  obtain ⟨h1, h2, -⟩ := C30_returns_iff g hg
  obtain ⟨N, hN⟩ := h2 (fun h => hno (h1.1 h))
  rcases C27_ends_or_panics g hg with ⟨comps, -, h, -⟩ | ⟨comps, M, root, st, h, -⟩
  · exact absurd ⟨comps, h⟩ hno
  · exact ⟨max N M, fun fuel hf => ⟨(h fuel (by omega)).2.2, hN fuel (by omega)⟩⟩

/-- **C69, graphs without cycles.**  There `components` ends, and `greedy` returns, exactly when no node is listed twice as
its own neighbor. -/
theorem C69_acyclic_iff (g : GraphI) (hg : g.Lawful) (hac : g.simple.IsAcyclic) :
    ((∃ comps, Components.Run g comps) ↔ ∀ v, (g.nbr v).count v ≤ 1) ∧
    ((∃ p, GreedyReturns g p) ↔ ∀ v, (g.nbr v).count v ≤ 1) := by
  have key : (∃ comps, Components.Run g comps) ↔ ∀ v, (g.nbr v).count v ≤ 1 := by
    constructor
    · rintro ⟨comps, M, h⟩ v
      by_contra hv
      obtain ⟨N, hN⟩ := C69_components_panic g hg v (by omega) (fun ⟨c, hc⟩ => hac c hc)
      obtain ⟨c2, h2⟩ := (C30_returns_iff g hg).1.2 ⟨comps, M, h⟩
      obtain ⟨K, h2⟩ := h2
      have := h2 (max K N) (by omega)
      rw [(hN (max K N) (by omega)).2] at this; simp at this
    · intro h
      obtain ⟨comps, h, -⟩ := C27_components_ends g hg h
      exact ⟨comps, h⟩
  exact ⟨key, (C30_returns_iff g hg).1.trans key⟩

/-- The same for a `DefaultGraph`: exactly when none of its edges is a self-loop. -/
theorem C69_default_iff (g : DefaultGraph) (hg : g.Reachable) (hac : g.toI.simple.IsAcyclic) :
    ((∃ comps, Components.Run g.toI comps) ↔ ∀ v, (v, v) ∉ g.edges) ∧
    ((∃ p, GreedyReturns g.toI p) ↔ ∀ v, (v, v) ∉ g.edges) := by
  have e : (∀ v, (g.toI.nbr v).count v ≤ 1) ↔ ∀ v, (v, v) ∉ g.edges := by
    refine forall_congr' fun v => ?_
    have hl := hg.loopExact.count v
    constructor
    · intro h hc
      rcases hl with h1 | h1 | h1
      · exact absurd ((reachable_lawful g hg).edges_adj _ _ hc) (by rw [← GraphI.mem_nbr, ← List.count_eq_zero]; exact h1)
      · exact h1.2 hc
      · omega
    · intro h
      rcases hl with h1 | h1 | h1
      · omega
      · omega
      · exact absurd h1.2 h
  rw [← e]
  exact C69_acyclic_iff g.toI (reachable_lawful g hg) hac

/-- A path 0-1-2 with a self-loop at 1. -/
def loopPathG : DefaultGraph := [GraphOp.node 0, .node 1, .node 2, .edge 0 1, .edge 1 1, .edge 1 2].foldl DefaultGraph.perform .new

/-- A triangle 0-1-2 with a self-loop at 0, added last. -/
def loopTriG : DefaultGraph :=
  [GraphOp.node 0, .node 1, .node 2, .edge 0 1, .edge 1 2, .edge 0 2, .edge 0 0].foldl DefaultGraph.perform .new

theorem loopPathG_reachable : loopPathG.Reachable := by
  unfold loopPathG
  simp only [List.foldl, DefaultGraph.perform]
  repeat (first | exact .new | apply DefaultGraph.Reachable.addNode | apply DefaultGraph.Reachable.addEdge)

theorem loopTriG_reachable : loopTriG.Reachable := by
  unfold loopTriG
  simp only [List.foldl, DefaultGraph.perform]
  repeat (first | exact .new | apply DefaultGraph.Reachable.addNode | apply DefaultGraph.Reachable.addEdge)

theorem loopPathG_dfs : DepthFirst.Run loopPathG.toI 0 [⟨0, 1, false⟩, ⟨1, 1, true⟩, ⟨1, 1, true⟩, ⟨1, 2, false⟩] :=
  DepthFirst.run_of_collect (fuel := 10) (by decide +kernel)

theorem loopPathG_acyclic : loopPathG.toI.simple.IsAcyclic := by
  have hl := reachable_lawful _ loopPathG_reachable
  intro x c hc
  have hx : x ∈ loopPathG.toI.nodes := by
    cases c with
    | nil => exact absurd rfl hc.ne_nil
    | cons h _ => exact hl.adj_src ((hl.simple_adj).1 h).2
  have hn : loopPathG.toI.nodes = [0, 1, 2] := by decide +kernel
  have h01 : loopPathG.toI.simple.Adj 0 1 := (hl.simple_adj).2 ⟨by decide, GraphI.mem_nbr.1 (by decide +kernel)⟩
  have h12 : loopPathG.toI.simple.Adj 1 2 := (hl.simple_adj).2 ⟨by decide, GraphI.mem_nbr.1 (by decide +kernel)⟩
  have hr : loopPathG.toI.simple.Reachable 0 x := by
    rw [hn] at hx
    simp only [List.mem_cons, List.not_mem_nil, or_false] at hx
    rcases hx with rfl | rfl | rfl
    · exact .refl _
    · exact h01.reachable
    · exact h01.reachable.trans h12.reachable
  obtain ⟨s, hs, h1, h2⟩ := (C54_dfs_cut_iff_cycle _ hl 0 _ loopPathG_dfs).2 ⟨x, hr, c, hc⟩
  simp only [List.mem_cons, List.not_mem_nil, or_false] at hs
  rcases hs with rfl | rfl | rfl | rfl <;> simp at h1 h2

example : loopPathG.Reachable ∧ loopPathG.toI.Lawful ∧ loopPathG.toI.simple.IsAcyclic ∧ 2 ≤ (loopPathG.toI.nbr 1).count 1 ∧
    ¬ OnCycle loopPathG.toI 1 ∧ (1, 1) ∈ loopPathG.edges ∧
    DepthFirst.Run loopPathG.toI 0 [⟨0, 1, false⟩, ⟨1, 1, true⟩, ⟨1, 1, true⟩, ⟨1, 2, false⟩] :=
  ⟨loopPathG_reachable, reachable_lawful _ loopPathG_reachable, loopPathG_acyclic, by decide +kernel,
    fun ⟨c, hc⟩ => loopPathG_acyclic c hc, by decide +kernel, loopPathG_dfs⟩

/-- **C69 needs "on no cycle"**: on a triangle whose first node has a self-loop, listed twice, a depth-first traversal from
there reports the loop never, and `components` and `greedy` return. -/
theorem C69_cycle_hides_loop :
    ∃ (g : DefaultGraph) (c : DefaultGraph) (p : Pairing), g.Reachable ∧ (0, 0) ∈ g.edges ∧ (g.toI.nbr 0).count 0 = 2 ∧
      DepthFirst.Run g.toI 0 [⟨0, 1, false⟩, ⟨1, 2, false⟩, ⟨2, 0, true⟩] ∧
      DepthFirst.Closes g.toI 0 [⟨0, 1, false⟩] ⟨1, 2, false⟩ 0 ∧
      Components.Run g.toI [c] ∧ GreedyReturns g.toI p := by
  refine ⟨loopTriG, ⟨[(2, 2), (1, 1), (0, 0)], [[1, 2], [0, 2], [1, 0]], [0, 1, 2], [(0, 1), (1, 2), (2, 0)]⟩,
    Pairing.new.pair 0 1, loopTriG_reachable, by decide +kernel, by decide +kernel,
    DepthFirst.run_of_collect (fuel := 10) (by decide +kernel),
    ⟨rfl, by decide, by decide, GraphI.mem_nbr.1 (by decide +kernel)⟩,
    Components.run_of_all (N := 10) (by decide +kernel), greedyReturns_of (N := 10) (by decide +kernel)⟩

end Gamma
