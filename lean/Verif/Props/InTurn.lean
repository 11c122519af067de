import Verif.Props.Outside
import Verif.Props.Optimum
/-
Property C71: one pairing through `maximum_matching` on the parts of a graph, in turn.
-/
namespace Gamma
open Pairing Blossom

/-! ### C71 -/

/-- **C71, each part.**  If `maximum_matching` is called in turn on graphs no two of which have a common node, with one
pairing, and returns each time, then in the end the pairs among the nodes of each graph are a maximum matching of it, and all
other ids are paired as at first — provided no graph has a node, and the pairing at first no pair, with an id that
`maximum_matching` may make up for a blossom of a later graph. -/
theorem C71_each_part {pf : Platform} {gs : List GraphI} {p q : Pairing} (h : MatchedInTurn pf gs p q) :
    (∀ g ∈ gs, g.Lawful ∧ g.edges.Nodup ∧ Headroom pf g) →
    gs.Pairwise (fun g h => (∀ v ∈ g.nodes, v ∉ h.nodes) ∧ g.ClearOf h) → p.Symmetric →
    (∀ g ∈ gs, p.Clear g ∧ ∀ v ∈ g.nodes, ∀ w, p.mate v = .ok w → g.Adj v w) →
    q.Symmetric ∧
    (∀ g ∈ gs, (∀ v ∈ g.nodes, ∀ w, q.mate v = .ok w → g.Adj v w) ∧
      ∀ ord : HashOrder, ord.Valid → IsMaximum g ((q.edges ord).filter (fun e => g.nodes.contains e.1))) ∧
    ∀ v, (∀ g ∈ gs, v ∉ g.nodes) → q.mate v = p.mate v := by
  induction h with
  | nil p => intro _ _ hs _; exact ⟨hs, by simp, fun _ _ => rfl⟩
  | cons g gs p q r hr _ ih =>
    intro hall hpw hs hp
    obtain ⟨hg, he, hh⟩ := hall g (by simp)
    obtain ⟨hc, ha⟩ := hp g (by simp)
    obtain ⟨ords, fuel, ho, e⟩ := hr
    rw [List.pairwise_cons] at hpw
    obtain ⟨s1, a1, o1, m1⟩ := C70_maximum_inside g hg he p hs ha hc pf hh ords ho fuel q e
    obtain ⟨s2, m2, o2⟩ := ih (fun h hm => hall h (by simp [hm])) hpw.2 s1 (fun h hm => by
      obtain ⟨k1, k2⟩ := hpw.1 h hm
      obtain ⟨k3, k4⟩ := hp h (by simp [hm])
      refine ⟨?_, ?_⟩
      · intro v w hv
        by_cases hvg : v ∈ g.nodes
        · exact k2 v hvg
        · rw [o1 v hvg] at hv; exact k3 v w hv
      · intro v hv w hw
        rw [o1 v (fun hvg => k1 v hvg hv)] at hw
        exact k4 v hv w hw)
    have off : ∀ v ∈ g.nodes, r.mate v = q.mate v := fun v hv => o2 v (fun h hm => (hpw.1 h hm).1 v hv)
    refine ⟨s2, ?_, ?_⟩
    · intro h hm
      rcases List.mem_cons.1 hm with rfl | hm
      · refine ⟨fun v hv w hw => a1 v hv w (by rw [← off v hv]; exact hw), fun ord hord => ?_⟩
        have hperm : ((r.edges ord).filter (fun e => h.nodes.contains e.1)).Perm
            ((q.edges ord).filter (fun e => h.nodes.contains e.1)) := by
          rw [List.perm_ext_iff_of_nodup ((edges_nodup hord s2).filter _) ((edges_nodup hord s1).filter _)]
          rintro ⟨a, c⟩
          simp only [List.mem_filter, mem_edges hord s2, mem_edges hord s1, List.contains_iff_mem]
          constructor <;> rintro ⟨⟨k1, k2⟩, k3⟩
          · exact ⟨⟨k1, by rw [← mate_eq_iff.1 (off a k3)]; exact k2⟩, k3⟩
          · exact ⟨⟨k1, by rw [mate_eq_iff.1 (off a k3)]; exact k2⟩, k3⟩
        have := m1 ord hord
        refine ⟨⟨fun x hx => this.1.edge x (hperm.mem_iff.1 hx), (edges_disjoint hord s2).filter _⟩, fun M hM => ?_⟩
        rw [hperm.length_eq]; exact this.2 M hM
      · exact m2 h hm
    · intro v hv
      rw [o2 v (fun h hm => hv h (by simp [hm])), o1 v (hv g (by simp))]

theorem length_le_parts (gs : List GraphI) (M : List (Nat × Nat)) (h : ∀ e ∈ M, ∃ g ∈ gs, e.1 ∈ g.nodes) :
    M.length ≤ (gs.map (fun g => (M.filter (fun e => g.nodes.contains e.1)).length)).sum := by
  induction gs generalizing M with
  | nil =>
    cases M with
    | nil => simp
    | cons e M => obtain ⟨g, hg, -⟩ := h e (by simp); simp at hg
  | cons g gs ih =>
    have h1 := ih (M.filter (fun e => !g.nodes.contains e.1)) (by
      intro e he
      rw [List.mem_filter] at he
      obtain ⟨k, hk, hx⟩ := h e he.1
      rcases List.mem_cons.1 hk with rfl | hk
      · have := he.2
        simp [hx] at this
      · exact ⟨k, hk, hx⟩)
    have h2 : (gs.map (fun h => ((M.filter (fun e => !g.nodes.contains e.1)).filter (fun e => h.nodes.contains e.1)).length)).sum ≤
        (gs.map (fun h => (M.filter (fun e => h.nodes.contains e.1)).length)).sum := by
      refine List.sum_le_sum (fun h _ => ?_)
      exact (List.filter_sublist.filter _).length_le
    have h3 : M.length = (M.filter (fun e => g.nodes.contains e.1)).length + (M.filter (fun e => !g.nodes.contains e.1)).length := by
      rw [← List.length_append]
      exact (List.filter_append_perm _ M).length_eq.symm
    simp only [List.map_cons, List.sum_cons]
    omega

theorem parts_le_length (gs : List GraphI) (M : List (Nat × Nat)) (hd : gs.Pairwise (fun g h => ∀ v ∈ g.nodes, v ∉ h.nodes)) :
    (gs.map (fun g => (M.filter (fun e => g.nodes.contains e.1)).length)).sum ≤ M.length := by
  induction gs generalizing M with
  | nil => simp
  | cons g gs ih =>
    rw [List.pairwise_cons] at hd
    have h1 := ih (M.filter (fun e => !g.nodes.contains e.1)) hd.2
    have h2 : gs.map (fun h => (M.filter (fun e => h.nodes.contains e.1)).length) =
        gs.map (fun h => ((M.filter (fun e => !g.nodes.contains e.1)).filter (fun e => h.nodes.contains e.1)).length) := by
      refine List.map_congr_left (fun h hm => ?_)
      rw [List.filter_filter]
      congr 1
      refine List.filter_congr (fun e _ => ?_)
      by_cases hx : e.1 ∈ h.nodes
      · have : e.1 ∉ g.nodes := fun hg => hd.1 h hm e.1 hg hx
        simp [hx, this]
      · simp [hx]
    have h3 : M.length = (M.filter (fun e => g.nodes.contains e.1)).length + (M.filter (fun e => !g.nodes.contains e.1)).length := by
      rw [← List.length_append]
      exact (List.filter_append_perm _ M).length_eq.symm
    simp only [List.map_cons, List.sum_cons]
    rw [h2]
    omega

/-- **C71.**  Let the graphs `gs`, no two with a common node, have between them the edges of `g` (self-loops apart).  If
`maximum_matching` is called on them in turn with one pairing, a matching of `g` at first (say a new one), and returns each
time, the pairing becomes a maximum matching of `g` — provided no graph has a node, and the pairing at first no pair, with
an id that `maximum_matching` may make up for a blossom of a later graph. -/
theorem C71_in_turn (g : GraphI) (gs : List GraphI) (pf : Platform)
    (hall : ∀ h ∈ gs, h.Lawful ∧ h.edges.Nodup ∧ Headroom pf h)
    (hd : gs.Pairwise (fun h k => ∀ v ∈ h.nodes, v ∉ k.nodes)) (hc : gs.Pairwise GraphI.ClearOf)
    (hsub : ∀ h ∈ gs, ∀ u v, h.Adj u v → g.Adj u v) (hcov : ∀ u v, u ≠ v → g.Adj u v → ∃ h ∈ gs, h.Adj u v)
    (p : Pairing) (hp : p.Matches g) (hpc : ∀ h ∈ gs, p.Clear h) (q : Pairing) (hq : MatchedInTurn pf gs p q) :
    q.Matches g ∧ ∀ ord : HashOrder, ord.Valid → IsMaximum g (q.edges ord) := by
  -- two parts with a common node are one
  have same : ∀ h ∈ gs, ∀ k ∈ gs, ∀ v, v ∈ h.nodes → v ∈ k.nodes → h = k := by
    intro h hh k hk v h1 h2
    by_contra hne
    have := List.pairwise_iff_getElem.1 hd
    obtain ⟨i, hi, rfl⟩ := List.getElem_of_mem hh
    obtain ⟨j, hj, rfl⟩ := List.getElem_of_mem hk
    rcases Nat.lt_trichotomy i j with hlt | heq | hlt
    · exact this i j hi hj hlt v h1 h2
    · subst heq; exact hne rfl
    · exact this j i hj hi hlt v h2 h1
  obtain ⟨s, m, o⟩ := C71_each_part hq hall (List.pairwise_and_iff.2 ⟨hd, hc⟩) hp.symmetric (fun h hh => ⟨hpc h hh, fun v hv w e => by
    have h1 := hp.symmetric.mate_mate v w e
    obtain ⟨k, hk, hka⟩ := hcov v w h1.1 (hp.adj v w e)
    have := same h hh k hk v hv ((hall k hk).1.adj_src hka)
    subst this; exact hka⟩)
  have adj : ∀ v w, q.mate v = .ok w → ∃ h ∈ gs, h.Adj v w := by
    intro v w e
    by_cases hv : ∃ h ∈ gs, v ∈ h.nodes
    · obtain ⟨h, hh, hv⟩ := hv
      exact ⟨h, hh, (m h hh).1 v hv w e⟩
    · push Not at hv
      rw [o v hv] at e
      obtain ⟨k, hk, hka⟩ := hcov v w (hp.symmetric.mate_mate v w e).1 (hp.adj v w e)
      exact ⟨k, hk, hka⟩
  have hM : q.Matches g := ⟨s, fun v w e => by
    obtain ⟨h, hh, ha⟩ := adj v w e
    exact hsub h hh v w ha⟩
  refine ⟨hM, fun ord hord => ⟨hM.isMatching hord, fun M hMm => ?_⟩⟩
  have e1 : ∀ e ∈ M, ∃ h ∈ gs, h.Adj e.1 e.2 := fun e he => hcov _ _ (hMm.edge e he).1 (hMm.edge e he).2
  have h1 := length_le_parts gs M (fun e he => by
    obtain ⟨h, hh, ha⟩ := e1 e he
    exact ⟨h, hh, (hall h hh).1.adj_src ha⟩)
  have h2 := parts_le_length gs (q.edges ord) hd
  have h3 : (gs.map (fun h => (M.filter (fun e => h.nodes.contains e.1)).length)).sum ≤
      (gs.map (fun h => ((q.edges ord).filter (fun e => h.nodes.contains e.1)).length)).sum := by
    refine List.sum_le_sum (fun h hh => ?_)
    refine ((m h hh).2 ord hord).2 _ ⟨?_, hMm.disjoint.filter _⟩
    intro e he
    rw [List.mem_filter] at he
    obtain ⟨k, hk, hka⟩ := e1 e he.1
    have := same h hh k hk e.1 (by simpa using he.2) ((hall k hk).1.adj_src hka)
    subst this
    exact ⟨(hMm.edge e he.1).1, hka⟩
  omega

/-- **C71 for `components`.**  Where `components` yields the connected components (C29: for instance on graphs whose cycles
are tame), a new pairing passed through `maximum_matching` on each becomes a maximum matching of the whole graph, if no
component has a node with an id that may be made up for a blossom of a later one (for instance, if the largest ids of the
components increase). -/
theorem C71_components (g : GraphI) (hg : g.Lawful) (comps : List DefaultGraph) (hr : Components.Run g comps)
    (ha : AreComponents g comps) (pf : Platform) (hh : ∀ c ∈ comps, Headroom pf c.toI)
    (hc : comps.Pairwise (fun c c' => c.toI.ClearOf c'.toI)) (q : Pairing)
    (hq : MatchedInTurn pf (comps.map DefaultGraph.toI) .new q) :
    q.Matches g ∧ ∀ ord : HashOrder, ord.Valid → IsMaximum g (q.edges ord) := by
  obtain ⟨h1, -⟩ := C28_components_connected_cover g hg comps hr
  have hnew : Pairing.new.Matches g := matches_of symmetric_new (by simp [Pairing.new, Pairing.get])
  refine C71_in_turn g (comps.map DefaultGraph.toI) pf ?_ ?_ ?_ ?_ ?_ .new hnew ?_ q hq
  · intro h hm
    obtain ⟨c, hcm, rfl⟩ := List.mem_map.1 hm
    have hre := (h1 c hcm).1.reachable
    exact ⟨reachable_lawful _ hre, hre.loopExact.nodup, hh c hcm⟩
  · rw [List.pairwise_map]; exact ha.disjoint
  · rw [List.pairwise_map]; exact hc
  · intro h hm u v huv
    obtain ⟨c, hcm, rfl⟩ := List.mem_map.1 hm
    exact (h1 c hcm).2.2.2.1 u v huv
  · intro u v hne huv
    have hu := hg.adj_src huv
    have hv := hg.adj_mem _ _ huv
    obtain ⟨c, hcm, hcu, hcv⟩ := (ha.together u v hu hv).2 (SimpleGraph.Adj.reachable ((hg.simple_adj).2 ⟨hne, huv⟩))
    exact ⟨c.toI, List.mem_map.2 ⟨c, hcm, rfl⟩, (ha.edges c hcm u hcu v hcv hne).2 huv⟩
  · intro h _ v w e
    simp [Pairing.new, mate, HMap.get] at e

/-- The largest ids of the graphs increase: then the condition on ids holds. -/
theorem C71_increasing (g h : GraphI) (hlt : ∃ u ∈ h.nodes, ∀ v ∈ g.nodes, v ≤ u) : g.ClearOf h := by
  obtain ⟨u, hu, hle⟩ := hlt
  exact fun v hv => .inl ⟨u, hu, hle v hv⟩

/-- A decidable test for `GraphI.ClearOf`. -/
theorem clearOf_of_test {g h : GraphI} (t : g.nodes.all (fun v => h.nodes.any (fun u => decide (v ≤ u)) ||
    h.nodes.all (fun u => decide (u + h.depth < v))) = true) : g.ClearOf h := by
  intro v hv
  have := List.all_eq_true.1 t v hv
  simpa using this

/-- The example graph (a triangle 4-7-2 with a tail 2-9, and an isolated node 5) and its components meet the hypotheses. -/
example : exG.toI.Lawful ∧ Components.Run exG.toI exComps ∧ AreComponents exG.toI exComps ∧
    (∀ c ∈ exComps, Headroom (pf64 true) c.toI) ∧ exComps.Pairwise (fun c c' => c.toI.ClearOf c'.toI) ∧
    ∃ q, MatchedInTurn (pf64 true) (exComps.map DefaultGraph.toI) .new q ∧ q.order = 4 := by
  refine ⟨exG_lawful, exG_components, C29_components_tame_partial _ exG_lawful exG_tameFirst _ exG_components, ?_, ?_, ?_⟩
  · intro c hc
    simp only [exComps, List.mem_cons, List.not_mem_nil, or_false] at hc
    rcases hc with rfl | rfl <;> exact headroom_of (by decide +kernel)
  · unfold exComps
    refine List.pairwise_pair.2 (clearOf_of_test (by decide +kernel))
  · refine ⟨pairingOf [(4, 7), (2, 9)], .cons _ _ _ (pairingOf [(4, 7), (2, 9)]) _ ⟨fun _ _ => id, 14, fun _ _ => HashOrder.id_valid, ?_⟩
      (.cons _ _ _ (pairingOf [(4, 7), (2, 9)]) _ ⟨fun _ _ => id, 14, fun _ _ => HashOrder.id_valid, ?_⟩ (.nil _)), ?_⟩
    · decide +kernel
    · decide +kernel
    · decide +kernel

/-- An edge 4-5, and a triangle 0-1-2 with a tail 2-3. -/
def clashG : DefaultGraph := graphOf [(4, 5), (0, 1), (1, 2), (2, 0), (2, 3)]

/-- **The condition on ids is needed, for `components` too**: `components` yields 4-5 first, and then the rest; matched in
this order with one pairing, the second call panics.  `maximum_matching` on the whole graph returns, with every node
paired. -/
theorem C71_clash (b : Bool) :
    Components.Run clashG.toI [graphOf [(4, 5)], sharedG] ∧
    maximumMatching (pf64 b) 14 (fun _ _ => id) (graphOf [(4, 5)]).toI .new = .ok (pairingOf [(4, 5)]) ∧
    maximumMatching (pf64 b) 14 (fun _ _ => id) sharedG.toI (pairingOf [(4, 5)]) = .panic "neighbors of v" ∧
    maximumMatching (pf64 b) 14 (fun _ _ => id) clashG.toI .new = .ok (pairingOf [(4, 5), (0, 1), (2, 3)]) := by
  refine ⟨?_, ?_, (C70_clash_panics b).2.1, ?_⟩
  · exact Components.run_of_all (N := 12) (by decide +kernel)
  · revert b; decide +kernel
  · revert b; decide +kernel

end Gamma
