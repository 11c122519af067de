import Verif.Props.Components
import Verif.Proofs.Cycles
/-
Properties C54–C55: what the cut steps of a traversal say about cycles, and how many steps there are.
-/
namespace Gamma

/-! ### C54 -/

/-- **C54, cut steps close cycles.**  In either traversal, a cut step between two different nodes is an edge of a cycle. -/
theorem C54_cut_edge_on_cycle (g : GraphI) (hg : g.Lawful) (root : Nat) (steps : List Step)
    (h : BreadthFirst.Run g root steps ∨ DepthFirst.Run g root steps) (s : Step) (hs : s ∈ steps) (hc : s.cut = true)
    (hne : s.sid ≠ s.tid) : ∃ (x : Nat) (c : g.simple.Walk x x), c.IsCycle ∧ s(s.sid, s.tid) ∈ c.edges := by
  rcases h with h | h
  · have h18 := C18_bfs_edges g hg root steps h
    refine cut_onCycle hg (fun pre s post e => C20_bfs_flags g hg root steps h pre s post e) (fun s hs => (h18.1 s hs).2)
      ?_ hs hc hne
    intro u v hne
    by_cases hu : g.simple.Reachable root u ∧ g.Adj u v
    · rw [h18.2 u v hu.1 hne hu.2]
    · by_contra hlt
      push Not at hlt
      obtain ⟨t, ht, e⟩ := exists_joinCount (u := u) (v := v) (st := steps) (by omega)
      have h1 := h18.1 t ht
      apply hu
      rcases e with ⟨rfl, rfl⟩ | ⟨rfl, rfl⟩
      · exact h1
      · exact ⟨h1.1.trans (SimpleGraph.Adj.reachable ((hg.simple_adj).2 ⟨hne.symm, h1.2⟩)), hg.adj_symm _ _ h1.2⟩
  · have h22 := C22_dfs_sound g hg root steps h
    refine cut_onCycle hg (fun pre s post e => (h22.1 pre s post e).2) ?_ (C23_dfs_once g hg root steps h).1 hs hc hne
    intro s hs
    obtain ⟨pre, post, e⟩ := List.append_of_mem hs
    exact (h22.1 pre s post e).1

/-- **C54, breadth-first.**  The traversal reports a cut step between two different nodes exactly when there is a cycle
in the component of the root. -/
theorem C54_bfs_cut_iff_cycle (g : GraphI) (hg : g.Lawful) (root : Nat) (steps : List Step)
    (h : BreadthFirst.Run g root steps) :
    (∃ s ∈ steps, s.cut = true ∧ s.sid ≠ s.tid) ↔ ∃ x, g.simple.Reachable root x ∧ OnCycle g x := by
  have h18 := C18_bfs_edges g hg root steps h
  have h16 := C16_bfs_discovers g hg root steps h
  constructor
  · rintro ⟨s, hs, hc, hne⟩
    obtain ⟨x, c, hcy, he⟩ := C54_cut_edge_on_cycle g hg root steps (.inl h) s hs hc hne
    exact ⟨s.sid, (h18.1 s hs).1, onCycle_of_edge hcy he⟩
  · rintro ⟨x, hx, hcy⟩
    by_contra hno
    push Not at hno
    refine tree_no_cycle hg (fun pre s post e => C20_bfs_flags g hg root steps h pre s post e) ?_
      ((h16.2 x).2 hx) hcy
    intro u hu v hne ha
    obtain ⟨s, hs, e⟩ := exists_joinCount (le_of_eq (h18.2 u v ((h16.2 u).1 hu) hne ha).symm)
    refine ⟨s, hs, ?_, e⟩
    cases hc : s.cut with
    | false => rfl
    | true =>
      exfalso
      have h1 := hno s hs hc
      rcases e with ⟨rfl, rfl⟩ | ⟨rfl, rfl⟩
      · exact hne h1
      · exact hne h1.symm

/-- **C54, depth-first.**  Although it may forget edges and miss nodes (C24), a depth-first traversal too reports a cut
step between two different nodes exactly when there is a cycle in the component of the root. -/
theorem C54_dfs_cut_iff_cycle (g : GraphI) (hg : g.Lawful) (root : Nat) (steps : List Step)
    (h : DepthFirst.Run g root steps) :
    (∃ s ∈ steps, s.cut = true ∧ s.sid ≠ s.tid) ↔ ∃ x, g.simple.Reachable root x ∧ OnCycle g x := by
  have h22 := C22_dfs_sound g hg root steps h
  obtain ⟨d, i, q⟩ := h.inv2 hg
  constructor
  · rintro ⟨s, hs, hc, hne⟩
    obtain ⟨x, c, hcy, he⟩ := C54_cut_edge_on_cycle g hg root steps (.inr h) s hs hc hne
    exact ⟨s.sid, h22.2.2 _ (i.inv.truth.sid_mem hs), onCycle_of_edge hcy he⟩
  · rintro ⟨x, hx, hcy⟩
    by_contra hno
    push Not at hno
    have tree := i.tree q hno
    refine tree_no_cycle hg i.inv.truth tree ?_ hcy
    refine closed_reachable hg (by simp [discovered]) (fun u v hu ha => ?_) hx
    by_cases e : u = v
    · rw [← e]; exact hu
    · obtain ⟨s, hs, -, ⟨-, rfl⟩ | ⟨rfl, -⟩⟩ := tree u hu v e ha
      · exact i.inv.truth.tid_mem hs
      · exact i.inv.truth.sid_mem hs

/-- So, on a graph without self-loops, when no step is a cut the traversal has met the whole component, which is a tree:
depth-first traversal misses something only after it has reported a cut. -/
theorem C54_dfs_no_cut_complete (g : GraphI) (hg : g.Lawful) (hl : g.Loopless) (root : Nat) (steps : List Step)
    (h : DepthFirst.Run g root steps) (hno : ∀ s ∈ steps, s.cut = false) :
    (∀ v, v ∈ discovered root steps ↔ g.simple.Reachable root v) ∧
    (∀ u v, g.simple.Reachable root u → g.Adj u v → joinCount u v steps = 1) ∧
    (∀ x, g.simple.Reachable root x → ¬ OnCycle g x) := by
  obtain ⟨d, i, q⟩ := h.inv2 hg
  have hno' : ∀ s ∈ steps, s.cut = true → s.sid = s.tid := fun s hs hc => by rw [hno s hs] at hc; simp at hc
  have tree := i.tree q hno'
  have hd : ∀ v, v ∈ discovered root steps ↔ g.simple.Reachable root v := by
    refine fun v => ⟨(C22_dfs_sound g hg root steps h).2.2 v, fun hx => ?_⟩
    refine closed_reachable hg (by simp [discovered]) (fun u v hu ha => ?_) hx
    by_cases e : u = v
    · rw [← e]; exact hu
    · obtain ⟨s, hs, -, ⟨-, rfl⟩ | ⟨rfl, -⟩⟩ := tree u hu v e ha
      · exact i.inv.truth.tid_mem hs
      · exact i.inv.truth.sid_mem hs
  refine ⟨hd, fun u v hu ha => ?_, fun x hx hcy => ?_⟩
  · have hne : u ≠ v := by rintro rfl; exact hl u ha
    refine le_antisymm ((C23_dfs_once g hg root steps h).1 u v hne) ?_
    obtain ⟨s, hs, -, e⟩ := tree u ((hd u).2 hu) v hne ha
    unfold joinCount
    exact List.countP_pos_iff.2 ⟨s, hs, by simpa using e⟩
  · obtain ⟨s, hs, hc, -⟩ := (C54_dfs_cut_iff_cycle g hg root steps h).2 ⟨x, hx, hcy⟩
    rw [hno s hs] at hc; simp at hc

/-- **C54, components.**  A graph without self-loops has no cycle exactly when every component that `components` yields
has one edge less than it has nodes (even though the components may be incomplete, C29). -/
theorem C54_components_trees (g : GraphI) (hg : g.Lawful) (hl : g.Loopless) (comps : List DefaultGraph)
    (h : Components.Run g comps) :
    (∀ c ∈ comps, c.size + 1 = c.order) ↔ g.simple.IsAcyclic := by
  obtain ⟨rc, hr, rfl⟩ := Components.run_iff hg.directed h
  have key : ∀ e ∈ rc, ∃ st, DepthFirst.Run g e.1 st ∧ (e.2.size + 1 = e.2.order ↔ ∀ s ∈ st, s.cut = false) := by
    intro e he
    obtain ⟨st, hst, e1, e2⟩ := (hr.comp e he).run
    refine ⟨st, hst, ?_⟩
    have hsz : e.2.size = st.length := by
      show e.2.edges.length = _
      rw [e2]; simp
    have hor : e.2.order = (st.filter (fun s => !s.cut)).length + 1 := by
      have : e.2.order = e.2.nodes.length := (hr.comp e he).lawful.order_eq
      rw [this, e1]; simp [discovered]
    rw [hsz, hor]
    constructor
    · intro hlen s hs
      have : st.filter (fun s => !s.cut) = st := List.filter_eq_self.2 (by
        have h1 := List.length_filter_eq_length_iff.1 (show (st.filter (fun s => !s.cut)).length = st.length by omega)
        exact h1)
      have := List.filter_eq_self.1 this s hs
      simpa using this
    · intro hall
      rw [List.filter_eq_self.2 (fun s hs => by simp [hall s hs])]
  have hne : ∀ root st, DepthFirst.Run g root st → ∀ s ∈ st, s.sid ≠ s.tid := by
    intro root st hst s hs e
    obtain ⟨pre, post, e'⟩ := List.append_of_mem hs
    have := ((C22_dfs_sound g hg root st hst).1 pre s post e').1
    rw [← e] at this
    exact hl _ this
  constructor
  · intro hall x c hc
    have hx : x ∈ g.nodes := hg.adj_src ((hg.simple_adj).1 (SimpleGraph.Walk.adj_snd hc.not_nil)).2
    obtain ⟨e, he, hxe⟩ := hr.cover x hx
    obtain ⟨st, hst, hiff⟩ := key e he
    have h1 := hiff.1 (hall e.2 (List.mem_map.2 ⟨e, he, rfl⟩))
    obtain ⟨s, hs, hcut, -⟩ := (C54_dfs_cut_iff_cycle g hg e.1 st hst).2 ⟨x, (hr.comp e he).reachable hg hxe, c, hc⟩
    rw [h1 s hs] at hcut; simp at hcut
  · intro hac c hc
    obtain ⟨e, he, rfl⟩ := List.mem_map.1 hc
    obtain ⟨st, hst, hiff⟩ := key e he
    refine hiff.2 (fun s hs => ?_)
    cases hcut : s.cut with
    | false => rfl
    | true =>
      obtain ⟨x, -, c, hcy⟩ := (C54_dfs_cut_iff_cycle g hg e.1 st hst).1 ⟨s, hs, hcut, hne _ st hst s hs⟩
      exact absurd hcy (hac c)

/-- The example graph has the cycle 4-7-2 and each traversal has its cut step; the path has none; in `missG` the
depth-first traversal misses node 3, and has a cut step. -/
example : exG.toI.Lawful ∧ exG.toI.Loopless ∧ BreadthFirst.Run exG.toI 4 exBfs ∧ (⟨7, 2, true⟩ : Step) ∈ exBfs ∧
    DepthFirst.Run exG.toI 4 exDfs ∧ (⟨2, 4, true⟩ : Step) ∈ exDfs ∧
    pathG.toI.Loopless ∧ DepthFirst.Run pathG.toI 1 [⟨1, 2, false⟩, ⟨2, 3, false⟩, ⟨1, 0, false⟩] ∧
    DepthFirst.Run missG.toI 0 [⟨0, 1, false⟩, ⟨1, 2, false⟩, ⟨2, 0, true⟩] ∧
    Components.Run exG.toI exComps ∧ exComps.map (fun c => (c.size, c.order)) = [(4, 4), (0, 1)] :=
  ⟨exG_lawful, exG_loopless, exG_bfs, by decide, exG_dfs, by decide, pathG_loopless, pathG_dfs, missG_dfs,
    exG_components, by decide +kernel⟩

/-! ### C55 -/

/-- **C55, nodes.**  A breadth-first traversal has one discovery step less than the component of the root has nodes. -/
theorem C55_bfs_discoveries (g : GraphI) (hg : g.Lawful) (root : Nat) (steps : List Step)
    (h : BreadthFirst.Run g root steps) :
    steps.countP (fun s => !s.cut) + 1 = {v | g.simple.Reachable root v}.ncard := by
  have h16 := C16_bfs_discovers g hg root steps h
  have e : {v | g.simple.Reachable root v} = ((discovered root steps).toFinset : Set Nat) := by
    ext v; simp [h16.2 v]
  rw [e, Set.ncard_coe_finset, List.toFinset_card_of_nodup h16.1]
  simp [discovered, List.countP_eq_length_filter]

theorem bfs_edge_set (g : GraphI) (hg : g.Lawful) (hl : g.Loopless) (root : Nat) (steps : List Step)
    (h : BreadthFirst.Run g root steps) :
    (steps.map (fun s => s(s.sid, s.tid))).Nodup ∧ {e ∈ g.simple.edgeSet | ∀ v ∈ e, g.simple.Reachable root v} =
      ((steps.map (fun s => s(s.sid, s.tid))).toFinset : Set (Sym2 Nat)) := by
  have h18 := C18_bfs_edges g hg root steps h
  have hne : ∀ s ∈ steps, s.sid ≠ s.tid := by
    intro s hs e
    have := (h18.1 s hs).2
    rw [← e] at this
    exact hl _ this
  have hreach : ∀ s ∈ steps, g.simple.Reachable root s.sid ∧ g.simple.Reachable root s.tid ∧ g.simple.Adj s.sid s.tid := by
    intro s hs
    have ha : g.simple.Adj s.sid s.tid := (hg.simple_adj).2 ⟨hne s hs, (h18.1 s hs).2⟩
    exact ⟨(h18.1 s hs).1, (h18.1 s hs).1.trans ha.reachable, ha⟩
  have hnd : (steps.map (fun s => s(s.sid, s.tid))).Nodup := by
    rw [List.nodup_iff_count_le_one]
    intro e
    by_cases he : e ∈ steps.map (fun s => s(s.sid, s.tid))
    · obtain ⟨s, hs, rfl⟩ := List.mem_map.1 he
      refine le_trans ?_ (le_of_eq (h18.2 s.sid s.tid (h18.1 s hs).1 (hne s hs) (h18.1 s hs).2))
      unfold joinCount List.count
      rw [List.countP_map]
      apply List.countP_mono_left
      intro x hx hxe
      have : s(x.sid, x.tid) = s(s.sid, s.tid) := by simpa using hxe
      rw [Sym2.eq_iff] at this
      simpa using this
    · rw [List.count_eq_zero.2 he]; omega
  have e : {e ∈ g.simple.edgeSet | ∀ v ∈ e, g.simple.Reachable root v} =
      ((steps.map (fun s => s(s.sid, s.tid))).toFinset : Set (Sym2 Nat)) := by
    ext e
    simp only [Set.mem_setOf_eq, List.coe_toFinset, List.mem_map]
    constructor
    · induction e with
      | _ u v =>
        rintro ⟨ha, hr⟩
        rw [SimpleGraph.mem_edgeSet] at ha
        obtain ⟨hne, hadj⟩ := (hg.simple_adj).1 ha
        obtain ⟨s, hs, e⟩ := exists_joinCount (le_of_eq (h18.2 u v (hr u (by simp)) hne hadj).symm)
        exact ⟨s, hs, by rw [Sym2.eq_iff]; exact e⟩
    · rintro ⟨s, hs, rfl⟩
      have := hreach s hs
      refine ⟨this.2.2, fun v hv => ?_⟩
      rcases Sym2.mem_iff.1 hv with rfl | rfl
      · exact this.1
      · exact this.2.1
  exact ⟨hnd, e⟩

/-- **C55, edges.**  On a graph without self-loops it has as many steps as the component has edges. -/
theorem C55_bfs_steps (g : GraphI) (hg : g.Lawful) (hl : g.Loopless) (root : Nat) (steps : List Step)
    (h : BreadthFirst.Run g root steps) :
    steps.length = {e ∈ g.simple.edgeSet | ∀ v ∈ e, g.simple.Reachable root v}.ncard := by
  obtain ⟨hnd, e⟩ := bfs_edge_set g hg hl root steps h
  rw [e, Set.ncard_coe_finset, List.toFinset_card_of_nodup hnd]
  simp

/-- **C55, connected graphs.**  If every node is connected to the root and there are no self-loops, there are `size()`
steps, `order() - 1` of them discoveries, so `size() + 1 - order()` cuts. -/
theorem C55_bfs_connected (g : GraphI) (hg : g.Lawful) (hl : g.Loopless) (root : Nat) (steps : List Step)
    (h : BreadthFirst.Run g root steps) (hconn : ∀ v ∈ g.nodes, g.simple.Reachable root v) :
    steps.length = g.size ∧ steps.countP (fun s => !s.cut) + 1 = g.order ∧
      steps.countP (fun s => s.cut) + g.order = g.size + 1 := by
  obtain ⟨hr, -⟩ := h.inv hg
  have h16 := C16_bfs_discovers g hg root steps h
  have h18 := C18_bfs_edges g hg root steps h
  have hlen : steps.length = g.size := by
    refine le_antisymm (C18_bfs_at_most_size g hg hl root steps h) ?_
    rw [C55_bfs_steps g hg hl root steps h, hg.size_eq]
    have hnd : (g.edges.map (fun e => s(e.1, e.2))).Nodup := by
      rw [List.nodup_iff_count_le_one]
      intro e
      by_cases he : e ∈ g.edges.map (fun e => s(e.1, e.2))
      · obtain ⟨⟨a, b⟩, hs, rfl⟩ := List.mem_map.1 he
        have hab : a ≠ b := by rintro rfl; exact hl a (hg.edges_adj _ _ hs)
        refine le_trans ?_ (hg.edges_once a b hab)
        unfold List.count
        rw [List.countP_map]
        have : ∀ l : List (Nat × Nat), l.countP ((fun x => x == s(a, b)) ∘ fun e => s(e.1, e.2)) ≤
            l.countP (fun x => x == (a, b)) + l.countP (fun x => x == (b, a)) := by
          intro l
          induction l with
          | nil => simp
          | cons x l ih =>
            rw [List.countP_cons, List.countP_cons, List.countP_cons]
            by_cases hx : s(x.1, x.2) = s(a, b)
            · have hx' := hx
              rw [Sym2.eq_iff] at hx'
              rcases hx' with ⟨h1, h2⟩ | ⟨h1, h2⟩
              · have e1 : (x == (a, b)) = true := by simp [Prod.ext_iff, h1, h2]
                have e2 : (s(x.1, x.2) == s(a, b)) = true := by simp [hx]
                simp only [Function.comp, e1, e2, if_true]
                omega
              · have e1 : (x == (b, a)) = true := by simp [Prod.ext_iff, h1, h2]
                have e2 : (s(x.1, x.2) == s(a, b)) = true := by simp [hx]
                simp only [Function.comp, e1, e2, if_true]
                omega
            · simp only [Function.comp, hx, beq_iff_eq, if_false]
              omega
        exact this _
      · rw [List.count_eq_zero.2 he]; omega
    have e : ((g.edges.map (fun e => s(e.1, e.2))).toFinset : Set (Sym2 Nat)) ⊆
        {e ∈ g.simple.edgeSet | ∀ v ∈ e, g.simple.Reachable root v} := by
      intro e he
      simp only [List.coe_toFinset, Set.mem_setOf_eq, List.mem_map] at he
      obtain ⟨⟨a, b⟩, hs, rfl⟩ := he
      have ha := hg.edges_adj _ _ hs
      have hab : a ≠ b := by rintro rfl; exact hl a ha
      refine ⟨(hg.simple_adj).2 ⟨hab, ha⟩, fun v hv => hconn v ?_⟩
      rcases Sym2.mem_iff.1 hv with rfl | rfl
      · exact hg.adj_src ha
      · exact hg.adj_mem _ _ ha
    have hfin : {e ∈ g.simple.edgeSet | ∀ v ∈ e, g.simple.Reachable root v}.Finite := by
      rw [(bfs_edge_set g hg hl root steps h).2]; exact Finset.finite_toSet _
    have := Set.ncard_le_ncard e hfin
    rw [Set.ncard_coe_finset, List.toFinset_card_of_nodup hnd] at this
    simpa using this
  have hdisc : steps.countP (fun s => !s.cut) + 1 = g.order := by
    have h1 : steps.countP (fun s => !s.cut) + 1 = (discovered root steps).length := by
      simp [discovered, List.countP_eq_length_filter]
    rw [h1, hg.order_eq]
    refine (List.perm_of_nodup_nodup_toFinset_eq h16.1 hg.nodes_nodup ?_).length_eq
    ext v
    simp only [List.mem_toFinset]
    refine ⟨fun hv => ?_, fun hv => (h16.2 v).2 (hconn v hv)⟩
    rcases mem_discovered.1 hv with rfl | ⟨s, hs, -, rfl⟩
    · exact hr
    · exact hg.adj_mem _ _ (h18.1 s hs).2
  refine ⟨hlen, hdisc, ?_⟩
  have := List.length_eq_countP_add_countP (fun s : Step => s.cut) (l := steps)
  have e : steps.countP (fun s => decide ¬ s.cut = true) = steps.countP (fun s => !s.cut) := by
    apply List.countP_congr; intro s _; simp
  rw [e] at this
  omega

/-- The hypotheses are met: in the triangle with a tail every node is connected to 0; four steps, one of them a cut; in
`exG`, whose node 9 is isolated, the component of 4 has four nodes and four edges. -/
example : tailG.toI.Lawful ∧ tailG.toI.Loopless ∧
    BreadthFirst.Run tailG.toI 0 [⟨0, 1, false⟩, ⟨0, 2, false⟩, ⟨1, 2, true⟩, ⟨2, 3, false⟩] ∧
    (∀ v ∈ tailG.toI.nodes, tailG.toI.simple.Reachable 0 v) ∧ tailG.toI.size = 4 ∧ tailG.toI.order = 4 := by
  have hl : tailG.toI.Lawful := reachable_lawful _ tailG_reachable
  have hr : BreadthFirst.Run tailG.toI 0 [⟨0, 1, false⟩, ⟨0, 2, false⟩, ⟨1, 2, true⟩, ⟨2, 3, false⟩] :=
    BreadthFirst.run_of_collect (fuel := 10) (by decide +kernel)
  refine ⟨hl, fun v hv => ?_, hr, fun v hv => ?_, by decide +kernel, by decide +kernel⟩
  · have h1 := hl.adj_src hv
    have h2 : tailG.toI.nodes = [0, 1, 2, 3] := by decide +kernel
    rw [h2] at h1
    have key : ∀ v ∈ [0, 1, 2, 3], v ∉ tailG.toI.nbr v := by decide +kernel
    exact key v h1 (GraphI.mem_nbr.2 hv)
  refine ((C16_bfs_discovers _ hl 0 _ hr).2 v).1 ?_
  have : v ∈ [0, 1, 2, 3] := by
    have e : tailG.toI.nodes = [0, 1, 2, 3] := by decide +kernel
    rwa [e] at hv
  simpa [discovered] using this

end Gamma
