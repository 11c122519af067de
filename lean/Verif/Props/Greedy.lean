import Verif.Props.Optimum
import Verif.Proofs.Rerun
/-
Properties C57–C58: what `greedy` guarantees, and what traversing a component again gives.
-/
namespace Gamma
open Pairing

/-! ### C57 -/

/-- **C57, first nodes.**  On a graph without self-loops, `greedy` pairs the first node (in `nodes()` order) of every
connected component with its first neighbor, if it has one. -/
theorem C57_greedy_pairs_first (g : GraphI) (hg : g.Lawful) (hl : g.Loopless) (p : Pairing) (hp : GreedyReturns g p)
    (r : Nat) (hr : r ∈ g.nodes) (hfirst : ∀ x, [x, r].Sublist g.nodes → ¬ g.simple.Reachable x r)
    (a : Nat) (rest : List Nat) (ha : g.neighbors r = .ok (a :: rest)) : p.mate r = .ok a :=
  mate_of_some (greedy_first hg hl hp hr hfirst (by simp [GraphI.nbr, ha]))

/-- **C57, never empty.**  So `greedy` finds nothing only if there is nothing to find. -/
theorem C57_greedy_empty_iff (g : GraphI) (hg : g.Lawful) (hl : g.Loopless) (p : Pairing) (hp : GreedyReturns g p) :
    p.order = 0 ↔ g.size = 0 := by
  classical
  obtain ⟨p', hp', hm, -⟩ := C30_greedy_matching g hg hl.noDoubleLoop
  have hpp : p' = p := by
    obtain ⟨N, hN⟩ := hp; obtain ⟨M, hM⟩ := hp'
    have h1 := hN (max N M) (le_max_left _ _)
    have h2 := hM (max N M) (le_max_right _ _)
    rw [h1] at h2; injection h2 with h2; exact h2.symm
  subst hpp
  rw [hg.size_eq]
  constructor
  · intro h0
    by_contra hne
    obtain ⟨⟨u, v⟩, he⟩ := List.exists_mem_of_length_pos (Nat.pos_of_ne_zero hne)
    have ha := hg.edges_adj u v he
    have hu := hg.adj_src ha
    -- the first node connected to `u`
    have hf : ∃ r ∈ g.nodes, g.simple.Reachable r u ∧ ∀ x, [x, r].Sublist g.nodes → ¬ g.simple.Reachable x r := by
      have key : ∀ l : List Nat, u ∈ l → l.Nodup →
          ∃ r ∈ l, g.simple.Reachable r u ∧ ∀ x, [x, r].Sublist l → ¬ g.simple.Reachable x u := by
        intro l
        induction l with
        | nil => simp
        | cons b l ih =>
          intro hm hnd
          rw [List.nodup_cons] at hnd
          by_cases hb : g.simple.Reachable b u
          · refine ⟨b, by simp, hb, fun x hx => ?_⟩
            exfalso
            cases hx with
            | cons _ h => exact hnd.1 (h.subset (by simp))
            | cons_cons _ h => exact hnd.1 (h.subset (by simp))
          · have hm' : u ∈ l := by
              rcases List.mem_cons.1 hm with rfl | hm
              · exact absurd (.refl _) hb
              · exact hm
            obtain ⟨r, h1, h2, h3⟩ := ih hm' hnd.2
            refine ⟨r, by simp [h1], h2, fun x hx => ?_⟩
            cases hx with
            | cons _ h => exact h3 x h
            | cons_cons _ h => exact hb
      obtain ⟨r, h1, h2, h3⟩ := key g.nodes hu hg.nodes_nodup
      exact ⟨r, h1, h2, fun x hx hr => h3 x hx (hr.trans h2)⟩
    obtain ⟨r, hr, hru, hfirst⟩ := hf
    -- it has a neighbor
    have hnb : ∃ a, g.Adj r a := by
      by_cases e : r = u
      · exact ⟨v, e ▸ ha⟩
      · obtain ⟨w⟩ := hru
        cases w with
        | nil => exact absurd rfl e
        | cons hadj _ => exact ⟨_, ((hg.simple_adj).1 hadj).2⟩
    obtain ⟨a, hra⟩ := hnb
    obtain ⟨l, hl', hal⟩ := hra
    cases l with
    | nil => simp at hal
    | cons b rest =>
      have := mate_eq_ok.1 (C57_greedy_pairs_first g hg hl p' hp r hr hfirst b rest hl')
      unfold order at h0
      have hpn : p'.pairs = [] := List.length_eq_zero_iff.1 h0
      unfold Pairing.get at this
      rw [hpn] at this
      simp [HMap.get] at this
  · intro h0
    by_contra hne
    have h1 := (hm.isMatching HashOrder.id_valid)
    have h2 := order_eq HashOrder.id_valid hm.symmetric
    have h3 : (p'.edges id).length ≠ 0 := by omega
    obtain ⟨e, he⟩ := List.exists_mem_of_length_pos (Nat.pos_of_ne_zero h3)
    have h4 := h1.edge e he
    have hnil : g.edges = [] := List.length_eq_zero_iff.1 h0
    rcases hg.adj_edges e.1 e.2 h4.1 h4.2 with h5 | h5 <;> rw [hnil] at h5 <;> simp at h5

/-- **C57, half.**  A pairing that covers every edge of the graph has at least half as many pairs as any matching (`order`
counts paired nodes, that is, twice the pairs). -/
theorem C57_maximal_is_half (g : GraphI) (hg : g.Lawful) (p : Pairing) (hp : p.Matches g)
    (hmax : ∀ u v, u ≠ v → g.Adj u v → p.hasNode u = true ∨ p.hasNode v = true) (M : List (Nat × Nat))
    (hM : IsMatching g M) : ∀ ord : HashOrder, ord.Valid → M.length ≤ 2 * (p.edges ord).length := by
  intro ord ho
  have h1 := maximal_half hg hp hmax hM
  have h2 := order_eq ho hp.symmetric
  omega

/-- **C57, greedy against maximum.**  Where nodes on cycles have at most two neighbors (trees, lone cycles), `greedy`
finds at least half as many pairs as `maximum_matching` does, from whatever matching that starts. -/
theorem C57_greedy_half_of_maximum (g : GraphI) (hg : g.Lawful) (he : g.edges.Nodup) (hl : g.Loopless)
    (hcyc : ∀ x, OnCycle g x → ¬ Deg3 g x) (p : Pairing) (hp : GreedyReturns g p)
    (p0 : Pairing) (hp0 : p0.Matches g) (pf : Platform) (q : Pairing) (hq : MatchingReturns pf g p0 q) :
    q.order ≤ 2 * p.order := by
  obtain ⟨p', hp', hm, -⟩ := C30_greedy_matching g hg hl.noDoubleLoop
  have hpp : p' = p := by
    obtain ⟨N, hN⟩ := hp; obtain ⟨M, hM⟩ := hp'
    have h1 := hN (max N M) (le_max_left _ _)
    have h2 := hM (max N M) (le_max_right _ _)
    rw [h1] at h2; injection h2 with h2; exact h2.symm
  subst hpp
  obtain ⟨hqm, -⟩ := hq.spec hg he hp0
  have h1 := C57_maximal_is_half g hg p' hm
    (fun u v _ ha => C31_greedy_maximal_lone_cycles_partial g hg hl hcyc p' hp u v ha) _ (hqm.isMatching HashOrder.id_valid)
    id HashOrder.id_valid
  have h2 := order_eq HashOrder.id_valid hqm.symmetric
  have h3 := order_eq HashOrder.id_valid hm.symmetric
  omega

/-- On the path 0-1-2-3 (stored as 1, 0, 2, 3) `greedy` pairs 1, the first node, with its first neighbor 2, and the
maximum is twice as large: the bound is sharp. -/
example : pathG.toI.Lawful ∧ pathG.toI.edges.Nodup ∧ pathG.toI.Loopless ∧ (∀ x, OnCycle pathG.toI x → ¬ Deg3 pathG.toI x) ∧
    GreedyReturns pathG.toI (Pairing.new.pair 1 2) ∧ pathG.toI.neighbors 1 = .ok [2, 0] ∧
    (∀ x, [x, 1].Sublist pathG.toI.nodes → ¬ pathG.toI.simple.Reachable x 1) ∧
    ∃ q, MatchingReturns (pf64 true) pathG.toI .new q ∧ q.order = 4 := by
  refine ⟨pathG_lawful, by decide +kernel, pathG_loopless, fun x ⟨c, hc⟩ => absurd hc (pathG_acyclic c),
    greedyReturns_of (N := 10) (by decide +kernel), by decide +kernel, fun x hx => ?_, ?_⟩
  · have h2 : pathG.toI.nodes = [1, 0, 2, 3] := by decide +kernel
    rw [h2] at hx
    exfalso
    cases hx with
    | cons _ h => exact absurd (h.subset (show 1 ∈ [x, 1] by simp)) (by decide)
    | cons_cons _ h => exact absurd (h.subset (show 1 ∈ [1] by simp)) (by decide)
  · exact ⟨_, ⟨fun _ _ => id, 14, fun _ _ => HashOrder.id_valid, rfl⟩, by decide +kernel⟩

/-! ### C58 -/

/-- **C58, converting and traversing again.**  If a depth-first traversal reports every edge at the nodes it discovers,
then the graph it converts to, traversed from the same root, yields the same steps again. -/
theorem C58_dfs_again (g : GraphI) (hg : g.Lawful) (hl : g.Loopless) (root : Nat) (steps : List Step)
    (h : DepthFirst.Run g root steps) (hne : steps ≠ [])
    (hall : ∀ u ∈ discovered root steps, ∀ v, g.Adj u v → joinCount u v steps = 1)
    (d : DepthFirst) (hd : DepthFirst.new g root = .ok d) (fuel : Nat) (hf : steps.length < fuel) :
    ∃ r : DefaultGraph, DefaultGraph.tryFromDfs g fuel d = .ok r ∧ DepthFirst.Run r.toI root steps := by
  obtain ⟨r, r1, r2, r3, r4, r5⟩ := C26_try_from g hg hl.noDoubleLoop root steps h d hd
  rw [if_neg hne] at r2
  have hlaw := r1.reachable.lawful
  have hdisc : root ∈ r.toI.nodes := by
    show root ∈ r.nodes
    rw [r2]; simp [discovered]
  obtain ⟨T, hT⟩ := DepthFirst.run_run hlaw hdisc
  have hradj : ∀ u v, r.toI.Adj u v ↔ (u, v) ∈ r.edges ∨ (v, u) ∈ r.edges := fun u v => Components.adj_iff_edges r1
  have hgadj : ∀ s ∈ steps, g.Adj s.sid s.tid := by
    intro s hs
    obtain ⟨pre, post, e⟩ := List.append_of_mem hs
    exact ((C22_dfs_sound g hg root steps h).1 pre s post e).1
  have hto : ∀ u v, r.toI.Adj u v → g.Adj u v := by
    intro u v ha
    rw [hradj, r3] at ha
    rcases ha with ha | ha <;> obtain ⟨s, hs, e⟩ := List.mem_map.1 ha <;>
      simp only [Prod.mk.injEq] at e <;> obtain ⟨rfl, rfl⟩ := e
    · exact hgadj s hs
    · exact hg.adj_symm _ _ (hgadj s hs)
  have e : T = steps := by
    refine DepthFirst.rerun hg hlaw hl (fun v hv => hl v (hto v v hv)) h hT (fun u hu v => ⟨fun ha => ?_, hto u v⟩) ?_
    · obtain ⟨s, hs, e⟩ := exists_joinCount (le_of_eq (hall u hu v ha).symm)
      rw [hradj, r3]
      rcases e with ⟨rfl, rfl⟩ | ⟨rfl, rfl⟩
      · exact .inl (List.mem_map.2 ⟨s, hs, rfl⟩)
      · exact .inr (List.mem_map.2 ⟨s, hs, rfl⟩)
    · intro u hu
      have := r4 u (by rw [r2]; exact hu)
      unfold GraphI.nbr
      rw [show r.toI.neighbors u = r.neighbors u from rfl, this]
      rfl
  exact ⟨r, r5 fuel hf, e ▸ hT⟩

/-- **C58, components of a component.**  If a component that `components` yields has all the edges the graph has at its
nodes, then `components` of it yields that component only, with the same nodes, edges and neighbors, in the same order. -/
theorem C58_components_again (g : GraphI) (hg : g.Lawful) (hl : g.Loopless) (comps : List DefaultGraph)
    (h : Components.Run g comps) (c : DefaultGraph) (hc : c ∈ comps)
    (hall : ∀ u ∈ c.nodes, ∀ v, g.Adj u v → c.toI.Adj u v) :
    ∃ c', Components.Run c.toI [c'] ∧ c'.nodes = c.nodes ∧ c'.edges = c.edges ∧ ∀ v, c'.neighbors v = c.neighbors v := by
  obtain ⟨rc, hr, rfl⟩ := Components.run_iff hg.directed h
  obtain ⟨e, he, rfl⟩ := List.mem_map.1 hc
  have hi := hr.comp e he
  have hlaw := hi.lawful
  have hcl : e.2.toI.Loopless := fun v hv => hl v (hi.adj hg hv)
  obtain ⟨S, h1, h2, h3⟩ := hi.run
  obtain ⟨comps', h', -⟩ := C27_components_ends e.2.toI hlaw hcl.noDoubleLoop
  obtain ⟨rc', hr', rfl⟩ := Components.run_iff hlaw.directed h'
  -- any traversal of the component from its first node has the same steps
  have hsame : ∀ T, DepthFirst.Run e.2.toI e.1 T → T = S := by
    intro T hT
    refine DepthFirst.rerun hg hlaw hl hcl h1 hT (fun u hu v => ⟨hall u (by rw [h2]; exact hu) v, hi.adj hg⟩) ?_
    intro u hu
    have := hi.ordered u (by rw [h2]; exact hu)
    unfold GraphI.nbr
    rw [show e.2.toI.neighbors u = e.2.neighbors u from rfl, this, h3]
  have hhead : e.2.toI.nodes.head? = some e.1 := hi.head
  -- the first root is the first node
  obtain ⟨l, hnodes⟩ : ∃ l, e.2.toI.nodes = e.1 :: l := by
    cases hn : e.2.toI.nodes with
    | nil => rw [hn] at hhead; simp at hhead
    | cons a l => rw [hn] at hhead; simp at hhead; exact ⟨l, by rw [hhead]⟩
  cases rc' with
  | nil =>
    obtain ⟨x, hx, -⟩ := hr'.cover e.1 (by rw [hnodes]; simp)
    simp at hx
  | cons a rest =>
    have ha : a.1 = e.1 := by
      by_contra hne
      have hmem : a.1 ∈ e.2.toI.nodes := hr'.roots.subset (by simp)
      rw [hnodes] at hmem
      have hsub : [e.1, a.1].Sublist e.2.toI.nodes := by
        rw [hnodes]
        exact (List.singleton_sublist.2 ((List.mem_cons.1 hmem).resolve_left hne)).cons_cons _
      obtain ⟨x, hx, -⟩ := hr'.earlier [] a rest rfl e.1 hsub
      simp at hx
    have hia := hr'.comp a (by simp)
    obtain ⟨T, t1, t2, t3⟩ := hia.run
    rw [ha] at t1 t2
    have hT := hsame T t1
    subst hT
    have hn : a.2.nodes = e.2.nodes := by rw [t2, h2]
    have hE : a.2.edges = e.2.edges := by rw [t3, h3]
    have hrest : rest = [] := by
      cases rest with
      | nil => rfl
      | cons b rest =>
        exfalso
        have hf := hr'.fresh
        rw [List.pairwise_cons] at hf
        apply hf.1 b (by simp)
        rw [hn]
        exact hr'.roots.subset (by simp)
    subst hrest
    refine ⟨a.2, h', hn, hE, fun v => ?_⟩
    by_cases hv : v ∈ e.2.nodes
    · rw [hi.ordered v hv, hia.ordered v (by rw [hn]; exact hv), hE]
    · have q1 : e.2.neighbors v = .err (.missingNode v) := hlaw.neighbors_err v hv
      have q2 : a.2.neighbors v = .err (.missingNode v) := hia.lawful.neighbors_err v (by show v ∉ a.2.nodes; rw [hn]; exact hv)
      rw [q1, q2]

/-- **C58, where cycles are tame** at the first node of a component, that component has all the edges. -/
theorem C58_components_again_tame (g : GraphI) (hg : g.Lawful) (hl : g.Loopless) (comps : List DefaultGraph)
    (h : Components.Run g comps) (c : DefaultGraph) (hc : c ∈ comps) (r : Nat) (hr : c.nodes.head? = some r)
    (ht : DepthFirst.Tame g r) :
    ∃ c', Components.Run c.toI [c'] ∧ c'.nodes = c.nodes ∧ c'.edges = c.edges ∧ ∀ v, c'.neighbors v = c.neighbors v := by
  refine C58_components_again g hg hl comps h c hc (fun u hu v ha => ?_)
  have hne : u ≠ v := by rintro rfl; exact hl u ha
  exact ((C29_component_tame_partial g hg comps h c hc r hr ht).2 u hu v hne).2 ha

/-- A connected graph of 8 nodes whose depth-first traversal from 0 forgets the edge 1-3. -/
def againG : DefaultGraph := graphOf [(0, 1), (1, 2), (2, 3), (3, 5), (5, 6), (6, 3), (0, 4), (1, 4), (3, 1), (0, 7)]

/-- The component `components` yields for it. -/
def againC : DefaultGraph :=
  { indices := [(7, 7), (4, 6), (6, 5), (5, 4), (3, 3), (2, 2), (1, 1), (0, 0)],
    adjacency := [[1, 4, 7], [0, 2, 4], [1, 3], [2, 5, 6], [3, 6], [5, 3], [0, 1], [0]],
    nodes := [0, 1, 2, 3, 5, 6, 4, 7],
    edges := [(0, 1), (1, 2), (2, 3), (3, 5), (5, 6), (6, 3), (0, 4), (4, 1), (0, 7)] }

/-- **C58 needs its hypothesis**: here `components` yields one component, which has all the nodes but lacks an edge, and
`components` of that component yields two overlapping ones. -/
theorem C58_components_again_differ :
    ∃ (g c c1 c2 : DefaultGraph), g.Reachable ∧ g.toI.Loopless ∧ Components.Run g.toI [c] ∧
      (∀ v, v ∈ c.nodes ↔ v ∈ g.nodes) ∧ Components.Run c.toI [c1, c2] ∧ 7 ∉ c1.nodes ∧ 0 ∈ c1.nodes ∧
      7 ∈ c2.nodes ∧ 0 ∈ c2.nodes := by
  have hN : againG.toI.nodes = [0, 1, 2, 3, 5, 6, 4, 7] := by decide +kernel
  refine ⟨againG, againC,
    { indices := [(4, 6), (6, 5), (5, 4), (3, 3), (2, 2), (1, 1), (0, 0)],
      adjacency := [[1, 4], [0, 2, 4], [1, 3], [2, 5, 6], [3, 6], [5, 3], [1, 0]],
      nodes := [0, 1, 2, 3, 5, 6, 4],
      edges := [(0, 1), (1, 2), (2, 3), (3, 5), (5, 6), (6, 3), (1, 4), (4, 0)] },
    { indices := [(4, 7), (6, 6), (5, 5), (3, 4), (2, 3), (1, 2), (0, 1), (7, 0)],
      adjacency := [[0], [7, 1, 4], [0, 2, 4], [1, 3], [2, 5, 6], [3, 6], [5, 3], [1, 0]],
      nodes := [7, 0, 1, 2, 3, 5, 6, 4],
      edges := [(7, 0), (0, 1), (1, 2), (2, 3), (3, 5), (5, 6), (6, 3), (1, 4), (4, 0)] },
    graphOf_reachable _, ?_, Components.run_of_all (N := 30) (by decide +kernel), ?_,
    Components.run_of_all (N := 30) (by decide +kernel), by decide, by decide, by decide, by decide⟩
  · intro v hv
    have h1 := (graphOf_lawful _).adj_src hv
    rw [show (graphOf _).toI.nodes = _ from hN] at h1
    have key : ∀ v ∈ [0, 1, 2, 3, 5, 6, 4, 7], v ∉ againG.toI.nbr v := by decide +kernel
    exact key v h1 (GraphI.mem_nbr.2 hv)
  · intro v
    rw [show againG.nodes = _ from hN]; rfl

/-- The hypotheses are met by the example graph: its component with the cycle 4-7-2 and the tail 9. -/
example : exG.toI.Lawful ∧ exG.toI.Loopless ∧ Components.Run exG.toI exComps ∧
    (∀ c ∈ exComps, ∀ u ∈ c.nodes, ∀ v, exG.toI.Adj u v → c.toI.Adj u v) := by
  refine ⟨exG_lawful, exG_loopless, exG_components, fun c hc u hu v ha => ?_⟩
  have key : ∀ c ∈ exComps, ∀ u ∈ c.nodes, ∀ v ∈ exG.toI.nbr u, v ∈ c.toI.nbr u := by decide +kernel
  exact GraphI.mem_nbr.1 (key c hc u hu v (GraphI.mem_nbr.2 ha))

/-- And by its traversal from 4. -/
example : DepthFirst.Run exG.toI 4 exDfs ∧ exDfs ≠ [] ∧
    ∀ u ∈ discovered 4 exDfs, ∀ v, exG.toI.Adj u v → joinCount u v exDfs = 1 := by
  refine ⟨exG_dfs, by decide, fun u hu v ha => ?_⟩
  have key : ∀ u ∈ discovered 4 exDfs, ∀ v ∈ exG.toI.nbr u, joinCount u v exDfs = 1 := by decide +kernel
  exact key u hu v (GraphI.mem_nbr.2 ha)

end Gamma
