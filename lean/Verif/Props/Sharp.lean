import Verif.Props.Rename
import Verif.Props.Count
import Verif.Proofs.Steer
import Verif.Proofs.Cycles
/-
Property C74: in which graphs depth-first traversals discover everything, however the graph was built.
-/
namespace Gamma

/-! ### C74 -/

theorem DepthFirst.Tame.of_simple {g h : GraphI} (e : g.simple = h.simple) {root : Nat} (ht : DepthFirst.Tame g root) :
    DepthFirst.Tame h root := by
  have ej : ∀ x a b, JoinedAround h x a b ↔ JoinedAround g x a b := by
    intro x a b
    unfold JoinedAround
    rw [e]
  have ef : ∀ x p a z b, DepthFirst.Fork h root x p a z b → DepthFirst.Fork g root x p a z b := by
    rintro x p a z b ⟨h1, h2, h3⟩
    refine ⟨h1, ?_, ?_⟩
    · rw [e]; exact h2
    · rw [e]; exact h3
  refine ⟨fun x hx p a z b hf => ?_, fun a z b hn hadj hj => ?_⟩
  · rw [ej, ej]; exact ht.others x hx p a z b (ef x p a z b hf)
  · rw [ej]; exact ht.root a z b hn (by rw [e]; exact hadj) ((ej _ _ _).1 hj)

/-- **C74, enough.**  Where cycles are tame, the traversal of every graph that compares equal discovers everything. -/
theorem C74_tame (g : DefaultGraph) (hg : g.ReachableNoAdjLoop) (root : Nat) (ht : DepthFirst.Tame g.toI root) :
    DepthFirst.AlwaysComplete g root := by
  intro h hh he st hr v hv
  have es := simple_of_eq hg hh he
  exact (C24_dfs_discovers_tame_partial _ (reachable_lawful _ hh.reachable) root (ht.of_simple es) st hr v).2 (es ▸ hv)

/-- **C74, necessary.**  Where a node may be lost (`DepthFirst.Loses`), some graph that compares equal, has the same nodes in the
same order and is built with `add_node` and `add_edge`, is traversed without discovering it. -/
theorem C74_loses (g : DefaultGraph) (hg : g.ReachableNoAdjLoop) (root b : Nat) (hb : DepthFirst.Loses g.toI root b) :
    g.toI.simple.Reachable root b ∧
    ∃ h : DefaultGraph, h.ReachableNoAdjLoop ∧ h.nodes = g.nodes ∧ g.eq h = .ok true ∧
      ∃ st, DepthFirst.Run h.toI root st ∧ b ∉ discovered root st := by
  obtain ⟨h1, P, hP, hc, h2⟩ := hb.path (reachable_lawful _ hg.reachable)
  obtain ⟨h, hh, hn, he, hS⟩ := DefaultGraph.steer hg hP hc
  exact ⟨h1, h, hh, hn, he, h2 _ hS⟩

/-- **C74, any implementation of `Graph`.**  There too the same graph with its neighbors listed in another order can be traversed
without discovering the node. -/
theorem C74_loses_any (g : GraphI) (hg : g.Lawful) (root b : Nat) (hb : DepthFirst.Loses g root b) :
    g.simple.Reachable root b ∧
    ∃ h, GraphI.Reordered g h ∧ h.Lawful ∧ ∃ st, DepthFirst.Run h root st ∧ b ∉ discovered root st := by
  obtain ⟨h1, P, -, hc, h2⟩ := hb.path hg
  have hS := GraphI.reorder_steers hg hc
  exact ⟨h1, _, GraphI.reorder_reordered _, hS.lawful, h2 _ hS⟩

/-- **C74, any implementation, enough.**  Where cycles are tame, no order of the neighbors does. -/
theorem C74_tame_any (g h : GraphI) (hg : g.Lawful) (hh : h.Lawful) (r : GraphI.Reordered g h) (root : Nat)
    (ht : DepthFirst.Tame g root) (st : List Step) (hr : DepthFirst.Run h root st) (v : Nat) :
    v ∈ discovered root st ↔ g.simple.Reachable root v := by
  have es := r.simple hg hh
  rw [C24_dfs_discovers_tame_partial h hh root (ht.of_simple es.symm) st hr v, es]

theorem AlwaysComplete.not_loses {g : DefaultGraph} (hg : g.ReachableNoAdjLoop) {root : Nat}
    (h : DepthFirst.AlwaysComplete g root) (b : Nat) : ¬ DepthFirst.Loses g.toI root b := by
  intro hb
  obtain ⟨h1, k, hk, -, he, st, hr, hm⟩ := C74_loses g hg root b hb
  exact hm (h k hk he st hr b h1)

/-- A node on a cycle has two neighbors joined around it. -/
theorem OnCycle.joined {g : GraphI} {x : Nat} (h : OnCycle g x) :
    ∃ a z, a ≠ z ∧ g.simple.Adj x a ∧ g.simple.Adj x z ∧ JoinedAround g x a z := by
  obtain ⟨c, hc⟩ := h
  cases c with
  | nil => exact absurd rfl hc.ne_nil
  | @cons _ a _ ha w =>
    obtain ⟨hp, he⟩ := (SimpleGraph.Walk.cons_isCycle_iff w ha).1 hc
    have hnil : ¬ w.Nil := fun hn => ha.ne' hn.eq
    refine ⟨a, w.penultimate, ?_, ha, (w.adj_penultimate hnil).symm, w.dropLast, ?_⟩
    · rintro e
      apply he
      have := w.mk_penultimate_end_mem_edges hnil
      rw [← e, Sym2.eq_swap] at this
      exact this
    · intro hm
      have h1 := hp.support_nodup
      have h2 : w.support = w.dropLast.support ++ [x] := by
        conv_lhs => rw [← SimpleGraph.Walk.concat_dropLast (w.adj_penultimate hnil)]
        rw [SimpleGraph.Walk.support_concat]
      rw [h2, List.nodup_append] at h1
      exact h1.2.2 x hm x (by simp) rfl

theorem JoinedAround.symm {g : GraphI} {x a b : Nat} (h : JoinedAround g x a b) : JoinedAround g x b a := by
  obtain ⟨w, hw⟩ := h
  exact ⟨w.reverse, by simpa using hw⟩

theorem JoinedAround.trans {g : GraphI} {x a b c : Nat} (h : JoinedAround g x a b) (h' : JoinedAround g x b c) :
    JoinedAround g x a c := by
  obtain ⟨w, hw⟩ := h
  obtain ⟨w', hw'⟩ := h'
  exact ⟨w.append w', by rw [SimpleGraph.Walk.mem_support_append_iff, not_or]; exact ⟨hw, hw'⟩⟩

/-- If no neighbor of the root can be lost, the root is on no cycle or its neighbors are joined around it. -/
theorem root_of_not_loses {g : GraphI} {root : Nat} (h : ∀ b, ¬ DepthFirst.Loses g root b) :
    ¬ OnCycle g root ∨ ∀ a b, g.simple.Adj root a → g.simple.Adj root b → JoinedAround g root a b := by
  by_cases hc : OnCycle g root
  · right
    obtain ⟨a, z, hne, ha, hz, hj⟩ := hc.joined
    have key : ∀ b, g.simple.Adj root b → JoinedAround g root a b := by
      intro b hb
      by_cases h1 : b = a
      · subst h1; exact ⟨.nil, by simpa using hb.ne⟩
      by_cases h2 : b = z
      · subst h2; exact hj
      by_contra hno
      exact h b (.inl ⟨a, z, by simp [hne, Ne.symm h1, Ne.symm h2], by simp [ha, hz, hb], hj, hno⟩)
    exact fun c d hc hd => (key c hc).symm.trans (key d hd)
  · exact .inl hc

/-- **C74, exactly, where no node on a cycle has more than three neighbors** (but for the root): the root is on no cycle, or is
not a cut vertex. -/
theorem C74_degrees (g : DefaultGraph) (hg : g.ReachableNoAdjLoop) (root : Nat)
    (hd : ∀ x, g.toI.simple.Reachable root x → x ≠ root → OnCycle g.toI x → ¬ Deg4 g.toI x) :
    DepthFirst.AlwaysComplete g root ↔ ¬ OnCycle g.toI root ∨
      ∀ a b, g.toI.simple.Adj root a → g.toI.simple.Adj root b → JoinedAround g.toI root a b := by
  constructor
  · intro h
    exact root_of_not_loses (AlwaysComplete.not_loses hg h)
  · intro h
    refine C74_tame g hg root (.of_degrees hd ?_)
    rcases h with h | h
    · exact .inl h
    · exact .inr (.inr h)

/-- **C74, exactly, where cycles share no nodes** (no node has three neighbors along edges of cycles): the root is on no cycle, or
is not a cut vertex, and cycles are entered at nodes with at most three neighbors. -/
theorem C74_apart (g : DefaultGraph) (hg : g.ReachableNoAdjLoop) (root : Nat)
    (hd : ∀ x, g.toI.simple.Reachable root x → ∀ a b c, [a, b, c].Nodup →
      ¬ (∀ y ∈ [a, b, c], ∃ w : g.toI.simple.Walk x x, w.IsCycle ∧ s(x, y) ∈ w.edges)) :
    DepthFirst.AlwaysComplete g root ↔
      (¬ OnCycle g.toI root ∨ ∀ a b, g.toI.simple.Adj root a → g.toI.simple.Adj root b → JoinedAround g.toI root a b) ∧
      ∀ x, g.toI.simple.Reachable root x → x ≠ root → OnCycle g.toI x → Deg4 g.toI x →
        ∀ p, g.toI.simple.Adj x p → JoinedAround g.toI x p root → ∃ w : g.toI.simple.Walk x x, w.IsCycle ∧ s(x, p) ∈ w.edges := by
  constructor
  · intro h
    have hno := AlwaysComplete.not_loses hg h
    refine ⟨root_of_not_loses hno, ?_⟩
    intro x hx hne hc h4 p hp hj
    by_contra hcyc
    obtain ⟨a, z, haz, ha, hz, w', hw'⟩ := hc.joined
    have cyc : ∀ c d, g.toI.simple.Adj x c → g.toI.simple.Adj x d → c ≠ d → JoinedAround g.toI x c d →
        ∃ w : g.toI.simple.Walk x x, w.IsCycle ∧ s(x, c) ∈ w.edges := by
      intro c d hc hd hcd hj
      obtain ⟨w, h1, h2, -⟩ := DepthFirst.cycle_of_joined hc hd hcd hj
      exact ⟨w, h1, h2⟩
    have ca := cyc a z ha hz haz ⟨w', hw'⟩
    have cz := cyc z a hz ha (Ne.symm haz) (JoinedAround.symm ⟨w', hw'⟩)
    have hpa : p ≠ a := by rintro rfl; exact hcyc ca
    have hpz : p ≠ z := by rintro rfl; exact hcyc cz
    obtain ⟨b, hb, hbp, hba, hbz⟩ : ∃ b, g.toI.simple.Adj x b ∧ b ≠ p ∧ b ≠ a ∧ b ≠ z := by
      obtain ⟨c1, c2, c3, c4, n1, n2, n3, n4, n5, n6, k1, k2, k3, k4⟩ := h4
      by_contra hno
      push Not at hno
      have e1 := hno c1 k1
      have e2 := hno c2 k2
      have e3 := hno c3 k3
      have e4 := hno c4 k4
      omega
    have nab : ¬ JoinedAround g.toI x a b := by
      intro hj'
      have cb := cyc b a hb ha hba hj'.symm
      refine hd x hx a z b (by simp [haz, Ne.symm hba, Ne.symm hbz]) ?_
      intro y hy
      simp only [List.mem_cons, List.not_mem_nil, or_false] at hy
      rcases hy with rfl | rfl | rfl
      · exact ca
      · exact cz
      · exact cb
    obtain ⟨w, hw⟩ := hj.symm
    refine hno b (.inr ⟨x, p, a, z, hne, ⟨by simp [hpa, hpz, haz, Ne.symm hbp, Ne.symm hba, Ne.symm hbz], by simp [hp, ha, hz, hb],
      w, w', hw, hw', ?_, ?_⟩, nab, ?_⟩)
    · intro hm
      exact nab ⟨w'.takeUntil b hm, fun hc => hw' (w'.support_takeUntil_subset _ hc)⟩
    · intro y hy hy'
      refine hcyc (cyc p a hp ha hpa ?_)
      have h1 : JoinedAround g.toI x root y := ⟨w.takeUntil y hy, fun hc => hw (w.support_takeUntil_subset _ hc)⟩
      have h2 : JoinedAround g.toI x a y := ⟨w'.takeUntil y hy', fun hc => hw' (w'.support_takeUntil_subset _ hc)⟩
      exact hj.trans (h1.trans h2.symm)
    · intro h1
      exact hcyc (cyc p b hp hb (Ne.symm hbp) (hj.trans h1))
  · rintro ⟨h1, h2⟩
    refine C74_tame g hg root (.of_edges ?_ ?_)
    · intro x hx hne hc
      by_cases h4 : Deg4 g.toI x
      · exact .inr ⟨hd x hx, h2 x hx hne hc h4⟩
      · exact .inl h4
    · rcases h1 with h | h
      · exact .inl h
      · exact .inr (.inr h)

theorem DepthFirst.run_unique {g : GraphI} {root : Nat} {st st' : List Step} (h : DepthFirst.Run g root st)
    (h' : DepthFirst.Run g root st') : st = st' := by
  obtain ⟨d, e, h1⟩ := h
  obtain ⟨d', e', h2⟩ := h'
  rw [e] at e'
  injection e' with e'
  subst e'
  exact endsAfter_unique h1 h2

theorem pair_sublist_or {l : List DefaultGraph} {a b : DefaultGraph} (ha : a ∈ l) (hb : b ∈ l) (hne : a ≠ b) :
    [a, b].Sublist l ∨ [b, a].Sublist l := by
  induction l with
  | nil => simp at ha
  | cons c l ih =>
    rcases List.mem_cons.1 ha with rfl | ha'
    · rcases List.mem_cons.1 hb with rfl | hb'
      · exact absurd rfl hne
      · exact .inl ((List.singleton_sublist.2 hb').cons_cons _)
    · rcases List.mem_cons.1 hb with rfl | hb'
      · exact .inr ((List.singleton_sublist.2 ha').cons_cons _)
      · exact (ih ha' hb').imp (·.cons _) (·.cons _)

/-- **C74, components.**  Where a node may be lost from the first node of a connected component, some graph that compares equal
and has the same nodes in the same order is one whose components are wrong. -/
theorem C74_components_loses (g : DefaultGraph) (hg : g.ReachableNoAdjLoop) (hl : g.toI.Loopless) (r b : Nat)
    (hfirst : ∀ x, [x, r].Sublist g.nodes → ¬ g.toI.simple.Reachable x r) (hb : DepthFirst.Loses g.toI r b) :
    ∃ (h : DefaultGraph) (comps : List DefaultGraph), h.ReachableNoAdjLoop ∧ h.nodes = g.nodes ∧ g.eq h = .ok true ∧
      Components.Run h.toI comps ∧ ¬ AreComponents h.toI comps := by
  obtain ⟨h1, h, hh, hn, he, st, hr, hm⟩ := C74_loses g hg r b hb
  have lh := reachable_lawful _ hh.reachable
  have lg := reachable_lawful _ hg.reachable
  have es := simple_of_eq hg hh he
  have ea := (same_of_eq hg hh he).2
  have hlh : h.toI.Loopless := fun v hv => hl v ((ea v v).2 hv)
  obtain ⟨comps, hc⟩ := Components.exists_run lh hlh.noDoubleLoop
  refine ⟨h, comps, hh, hn, he, hc, fun hA => ?_⟩
  obtain ⟨q1, q2, -, -, q5⟩ := C28_components_connected_cover _ lh comps hc
  have hrn : r ∈ h.toI.nodes := (hr.inv lh).1
  obtain ⟨c, hcm, hrc⟩ := q2 r hrn
  have once : ∀ c' ∈ comps, r ∈ c'.nodes → c' = c := by
    intro c' hc' hr'
    by_contra hne
    have hp := hA.disjoint
    rw [List.pairwise_iff_forall_sublist] at hp
    rcases pair_sublist_or hc' hcm hne with hs | hs
    · exact hp hs r hr' hrc
    · exact hp hs r hrc hr'
  have reach_mem : ∀ u v, h.toI.simple.Reachable u v → u ∈ h.toI.nodes → v ∈ h.toI.nodes := by
    rintro u v ⟨w⟩ hu
    induction w with
    | nil => exact hu
    | cons ha w ih => exact ih (lh.adj_mem _ _ ((lh.simple_adj).1 ha).2)
  have hbn : b ∈ h.toI.nodes := reach_mem r b (es ▸ h1) hrn
  obtain ⟨c2, hc2, hr2, hb2⟩ := (hA.together r b hrn hbn).2 (es ▸ h1)
  have := once c2 hc2 hr2
  subst this
  obtain ⟨r0, st0, e0, run0, n0, -⟩ := C28_components_exact _ lh comps hc c2 hc2
  have hr0 : r0 = r := by
    by_contra hne
    have hm0 : r0 ∈ c2.nodes := List.mem_of_mem_head? e0
    have hreach : h.toI.simple.Reachable r0 r := (hA.together r0 r ((q1 c2 hc2).2.2.1 _ hm0) hrn).1 ⟨c2, hc2, hm0, hr2⟩
    rcases pair_sublist ((q1 c2 hc2).2.2.1 _ hm0) hrn hne with hs | hs
    · exact hfirst r0 (hn ▸ hs) (es ▸ hreach)
    · obtain ⟨l, l', hl'⟩ := List.append_of_mem hc2
      obtain ⟨c', hc', hx⟩ := q5 l c2 l' r0 hl' e0 r hs
      have hp := hA.disjoint
      rw [hl', List.pairwise_append] at hp
      exact hp.2.2 c' hc' c2 (by simp) r hx hr2
  subst hr0
  rw [n0, DepthFirst.run_unique run0 hr] at hb2
  exact hm hb2

/-- **C74, components, exactly**, where no node on a cycle has more than three neighbors (but for the first of a connected
component): `components` is right for every graph that compares equal and has the same nodes in the same order, exactly if the
first node of each connected component is on no cycle or is not a cut vertex. -/
theorem C74_components_degrees (g : DefaultGraph) (hg : g.ReachableNoAdjLoop) (hl : g.toI.Loopless)
    (hd : ∀ r ∈ g.nodes, (∀ x, [x, r].Sublist g.nodes → ¬ g.toI.simple.Reachable x r) →
      ∀ x, g.toI.simple.Reachable r x → x ≠ r → OnCycle g.toI x → ¬ Deg4 g.toI x) :
    (∀ (h : DefaultGraph) (comps : List DefaultGraph), h.ReachableNoAdjLoop → h.nodes = g.nodes → g.eq h = .ok true →
      Components.Run h.toI comps → AreComponents h.toI comps) ↔
    ∀ r ∈ g.nodes, (∀ x, [x, r].Sublist g.nodes → ¬ g.toI.simple.Reachable x r) → ¬ OnCycle g.toI r ∨
      ∀ a b, g.toI.simple.Adj r a → g.toI.simple.Adj r b → JoinedAround g.toI r a b := by
  constructor
  · intro H r hr hfirst
    refine root_of_not_loses (fun b hb => ?_)
    obtain ⟨h, comps, h1, h2, h3, h4, h5⟩ := C74_components_loses g hg hl r b hfirst hb
    exact h5 (H h comps h1 h2 h3 h4)
  · intro H h comps hh hn he hc
    have es := simple_of_eq hg hh he
    refine C29_components_tame_partial _ (reachable_lawful _ hh.reachable) ?_ comps hc
    intro r hr hfirst
    have hr' : r ∈ g.nodes := hn ▸ hr
    have hf' : ∀ x, [x, r].Sublist g.nodes → ¬ g.toI.simple.Reachable x r := by
      intro x hx
      rw [es]
      exact hfirst x (show [x, r].Sublist h.nodes from hn ▸ hx)
    refine DepthFirst.Tame.of_simple es (.of_degrees (hd r hr' hf') ?_)
    rcases H r hr' hf' with h | h
    · exact .inl h
    · exact .inr (.inr h)

/-! The triangle 0-1-2 with a third neighbor 3 of node 0: not complete from 0, but complete from 1. -/

theorem missG_adj {u v : Nat} : missG.toI.simple.Adj u v ↔
    (u, v) ∈ [(0, 1), (0, 2), (0, 3), (1, 0), (1, 2), (2, 0), (2, 1), (3, 0)] := by
  have hl := reachable_lawful _ missG_reachable
  rw [hl.simple_adj]
  constructor
  · rintro ⟨hne, ha⟩
    have hu := hl.adj_src ha
    have hn : missG.toI.nodes = [0, 1, 2, 3] := by decide +kernel
    rw [hn] at hu
    have key : ∀ u ∈ [0, 1, 2, 3], ∀ v ∈ missG.toI.nbr u,
        (u, v) ∈ [(0, 1), (0, 2), (0, 3), (1, 0), (1, 2), (2, 0), (2, 1), (3, 0)] := by decide +kernel
    exact key u hu v (GraphI.mem_nbr.2 ha)
  · intro h
    have key : ∀ e ∈ [(0, 1), (0, 2), (0, 3), (1, 0), (1, 2), (2, 0), (2, 1), (3, 0)], e.1 ≠ e.2 ∧ e.2 ∈ missG.toI.nbr e.1 := by
      decide +kernel
    obtain ⟨h1, h2⟩ := key _ h
    exact ⟨h1, GraphI.mem_nbr.1 h2⟩

theorem missG_not_deg4 (x : Nat) : ¬ Deg4 missG.toI x := by
  rintro ⟨a, b, c, d, h1, h2, h3, h4, h5, h6, ha, hb, hc, hd⟩
  rw [missG_adj] at ha hb hc hd
  simp only [List.mem_cons, Prod.mk.injEq, List.not_mem_nil, or_false] at ha hb hc hd
  omega

example : missG.ReachableNoAdjLoop ∧ (∀ x, ¬ Deg4 missG.toI x) ∧ DepthFirst.AlwaysComplete missG 1 ∧
    DepthFirst.Loses missG.toI 0 3 ∧ ¬ DepthFirst.AlwaysComplete missG 0 := by
  have h01 : missG.toI.simple.Adj 0 1 := missG_adj.2 (by decide)
  have h02 : missG.toI.simple.Adj 0 2 := missG_adj.2 (by decide)
  have h03 : missG.toI.simple.Adj 0 3 := missG_adj.2 (by decide)
  have h12 : missG.toI.simple.Adj 1 2 := missG_adj.2 (by decide)
  have hlose : DepthFirst.Loses missG.toI 0 3 := by
    refine .inl ⟨1, 2, by decide, by simp [h01, h02, h03], ⟨.cons h12 .nil, by simp⟩, ?_⟩
    intro hj
    obtain ⟨w, hw⟩ := hj.symm
    cases w with
    | @cons _ y _ ha w =>
      rw [missG_adj] at ha
      simp only [List.mem_cons, Prod.mk.injEq, List.not_mem_nil, or_false] at ha
      rw [SimpleGraph.Walk.support_cons, List.mem_cons, not_or] at hw
      have := hw.2
      have h0 := w.start_mem_support
      obtain rfl : y = 0 := by omega
      exact this h0
  refine ⟨missG_noAdjLoop, missG_not_deg4, ?_, hlose, fun h => AlwaysComplete.not_loses missG_noAdjLoop h 3 hlose⟩
  refine (C74_degrees missG missG_noAdjLoop 1 (fun x _ _ _ => missG_not_deg4 x)).2 (.inr ?_)
  intro a b ha hb
  rw [missG_adj] at ha hb
  simp only [List.mem_cons, Prod.mk.injEq, List.not_mem_nil, or_false] at ha hb
  have ha : a = 0 ∨ a = 2 := by omega
  have hb : b = 0 ∨ b = 2 := by omega
  have key : JoinedAround missG.toI 1 0 2 := ⟨.cons h02 .nil, by simp⟩
  rcases ha with rfl | rfl <;> rcases hb with rfl | rfl
  · exact ⟨.nil, by simp⟩
  · exact key
  · exact key.symm
  · exact ⟨.nil, by simp⟩

/-! The triangle 0-1-2 with two more neighbors 3 and 4 of node 1: complete from 0, but not from 3. -/

theorem ringG_noAdjLoop : ringG.ReachableNoAdjLoop := by
  unfold ringG
  simp only [List.foldl, DefaultGraph.perform]
  repeat (first | exact .new | apply DefaultGraph.ReachableNoAdjLoop.addNode | apply DefaultGraph.ReachableNoAdjLoop.addEdge)

theorem ringG_cycle {x y : Nat} (h : ∃ w : ringG.toI.simple.Walk x x, w.IsCycle ∧ s(x, y) ∈ w.edges) :
    (x, y) ∈ [(0, 1), (0, 2), (1, 0), (1, 2), (2, 1), (2, 0)] := by
  obtain ⟨w, hc, he⟩ := h
  have ha := ringG_adj (w.adj_of_mem_edges he)
  have h1 := onCycle_of_edge hc he
  have h2 := onCycle_of_edge hc (by rw [Sym2.eq_swap]; exact he)
  have two : ∀ v, OnCycle ringG.toI v → v ≠ 3 ∧ v ≠ 4 := by
    intro v hv
    obtain ⟨a, z, hne, ha, hz, -⟩ := hv.joined
    have ha := ringG_adj ha
    have hz := ringG_adj hz
    simp only [List.mem_cons, Prod.mk.injEq, List.not_mem_nil, or_false] at ha hz
    omega
  have t1 := two x h1
  have t2 := two y h2
  simp only [List.mem_cons, Prod.mk.injEq, List.not_mem_nil, or_false] at ha ⊢
  omega

theorem ringG_apart (x a b c : Nat) (hn : [a, b, c].Nodup) :
    ¬ (∀ y ∈ [a, b, c], ∃ w : ringG.toI.simple.Walk x x, w.IsCycle ∧ s(x, y) ∈ w.edges) := by
  intro h
  have ha := ringG_cycle (h a (by simp))
  have hb := ringG_cycle (h b (by simp))
  have hc := ringG_cycle (h c (by simp))
  simp only [List.nodup_cons, List.mem_cons, List.not_mem_nil, or_false, not_or, not_false_eq_true, List.nodup_nil,
    and_true] at hn
  simp only [List.mem_cons, Prod.mk.injEq, List.not_mem_nil, or_false] at ha hb hc
  omega

example : ringG.ReachableNoAdjLoop ∧
    (∀ x a b c, [a, b, c].Nodup → ¬ (∀ y ∈ [a, b, c], ∃ w : ringG.toI.simple.Walk x x, w.IsCycle ∧ s(x, y) ∈ w.edges)) ∧
    DepthFirst.AlwaysComplete ringG 0 ∧ ¬ DepthFirst.AlwaysComplete ringG 3 := by
  have adj : ∀ u v, v ∈ ringG.toI.nbr u → u ≠ v → ringG.toI.simple.Adj u v := fun u v he hne =>
    (ringG_lawful.simple_adj).2 ⟨hne, GraphI.mem_nbr.1 he⟩
  have h10 : ringG.toI.simple.Adj 1 0 := adj _ _ (by decide +kernel) (by decide)
  have h12 : ringG.toI.simple.Adj 1 2 := adj _ _ (by decide +kernel) (by decide)
  have h13 : ringG.toI.simple.Adj 1 3 := adj _ _ (by decide +kernel) (by decide)
  have h14 : ringG.toI.simple.Adj 1 4 := adj _ _ (by decide +kernel) (by decide)
  have h02 : ringG.toI.simple.Adj 0 2 := adj _ _ (by decide +kernel) (by decide)
  refine ⟨ringG_noAdjLoop, ringG_apart, C74_tame _ ringG_noAdjLoop 0 ringG_tame, fun h => ?_⟩
  obtain ⟨-, h2⟩ := (C74_apart ringG ringG_noAdjLoop 3 (fun x _ => ringG_apart x)).1 h
  obtain ⟨c, hc, -⟩ := DepthFirst.cycle_of_joined h10 h12 (by decide) ⟨.cons h02 .nil, by simp⟩
  have := ringG_cycle (h2 1 h13.symm.reachable (by decide) ⟨c, hc⟩
    ⟨0, 2, 3, 4, by decide, by decide, by decide, by decide, by decide, by decide, h10, h12, h13, h14⟩ 3 h13 ⟨.nil, by simp⟩)
  simp at this

end Gamma
