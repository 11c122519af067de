import Verif.Props.Cost
import Verif.Props.Graph
/-
Property C82: keeping a matching up to date while the graph grows.
-/
namespace Gamma
open Pairing Blossom

/-! ### C82 -/

theorem addNode_adj (g : DefaultGraph) (hg : g.Reachable) (id u v : Nat) (hne : u ≠ v) :
    (g.addNode id).1.toI.Adj u v ↔ g.toI.Adj u v := by
  have h1 := hg.lawful
  have h2 := (DefaultGraph.Reachable.addNode g id hg).lawful
  have he : (g.addNode id).1.edges = g.edges := by
    obtain ⟨a, b⟩ := C01_add_node g hg id
    cases hn : g.hasNode id with
    | true => rw [a hn]
    | false => exact (b hn).2.2.1
  have he' : (g.addNode id).1.toI.edges = g.toI.edges := he
  constructor
  · intro h
    rcases h2.adj_edges u v hne h with h | h
    · rw [he'] at h; exact h1.edges_adj _ _ h
    · rw [he'] at h; exact h1.adj_symm _ _ (h1.edges_adj _ _ h)
  · intro h
    rcases h1.adj_edges u v hne h with h | h
    · rw [← he'] at h; exact h2.edges_adj _ _ h
    · rw [← he'] at h; exact h2.adj_symm _ _ (h2.edges_adj _ _ h)

theorem addEdge_edges (g : DefaultGraph) (hg : g.Reachable) (s t : Nat) :
    ((g.addEdge s t).2 = .ok () → (g.addEdge s t).1.edges = g.edges ++ [(s, t)]) ∧
    ((g.addEdge s t).2 ≠ .ok () → (g.addEdge s t).1 = g) := by
  obtain ⟨a, b, c, d⟩ := C02_add_edge g hg s t
  cases hs : g.hasNode s with
  | false => rw [a hs]; simp
  | true =>
    cases ht : g.hasNode t with
    | false => rw [b hs ht]; simp
    | true =>
      by_cases hE : g.hasEdge s t = .ok true
      · rw [c hs ht hE]; simp
      · exact ⟨fun _ => (d hs ht hE).2.2.1, fun h => absurd (d hs ht hE).1 h⟩

theorem addEdge_adj (g : DefaultGraph) (hg : g.Reachable) (s t u v : Nat) (hne : u ≠ v) :
    (g.addEdge s t).1.toI.Adj u v ↔
      g.toI.Adj u v ∨ ((g.addEdge s t).2 = .ok () ∧ ((u = s ∧ v = t) ∨ (u = t ∧ v = s))) := by
  have h1 := hg.lawful
  have h2 := (DefaultGraph.Reachable.addEdge g s t hg).lawful
  obtain ⟨e1, e2⟩ := addEdge_edges g hg s t
  by_cases hok : (g.addEdge s t).2 = .ok ()
  · have he : (g.addEdge s t).1.toI.edges = g.toI.edges ++ [(s, t)] := e1 hok
    constructor
    · intro h
      rcases h2.adj_edges u v hne h with h | h
      · rw [he, List.mem_append] at h
        rcases h with h | h
        · exact .inl (h1.edges_adj _ _ h)
        · simp at h; exact .inr ⟨hok, .inl h⟩
      · rw [he, List.mem_append] at h
        rcases h with h | h
        · exact .inl (h1.adj_symm _ _ (h1.edges_adj _ _ h))
        · simp at h; exact .inr ⟨hok, .inr ⟨h.2, h.1⟩⟩
    · rintro (h | ⟨-, ⟨rfl, rfl⟩ | ⟨rfl, rfl⟩⟩)
      · rcases h1.adj_edges u v hne h with h | h
        · exact h2.edges_adj _ _ (by rw [he]; simp [h])
        · exact h2.adj_symm _ _ (h2.edges_adj _ _ (by rw [he]; simp [h]))
      · exact h2.edges_adj _ _ (by rw [he]; simp)
      · exact h2.adj_symm _ _ (h2.edges_adj _ _ (by rw [he]; simp))
  · rw [e2 hok]; simp [hok]

theorem addEdge_nodes (g : DefaultGraph) (hg : g.Reachable) (s t : Nat) (h : (g.addEdge s t).2 = .ok ()) :
    (g.addEdge s t).1.nodes = g.nodes ∧ s ∈ g.toI.nodes ∧ t ∈ g.toI.nodes ∧ ¬ g.toI.Adj s t := by
  obtain ⟨a, b, c, d⟩ := C02_add_edge g hg s t
  have hl := hg.lawful
  cases hs : g.hasNode s with
  | false => rw [a hs] at h; simp at h
  | true =>
    cases ht : g.hasNode t with
    | false => rw [b hs ht] at h; simp at h
    | true =>
      have hs' := (hl.hasNode_iff s).1 hs
      have ht' := (hl.hasNode_iff t).1 ht
      by_cases hE : g.hasEdge s t = .ok true
      · rw [c hs ht hE] at h; simp at h
      · refine ⟨(d hs ht hE).2.1, hs', ht', fun hadj => hE ?_⟩
        obtain ⟨b, e1, e2⟩ := hl.hasEdge_ok s t hs' ht'
        rw [e2.2 hadj] at e1
        exact e1

/-- **C82.**  A matching stays a matching when nodes and edges are added, or refused. -/
theorem C82_stays_matching (g : DefaultGraph) (hg : g.Reachable) (p : Pairing) (hp : p.Matches g.toI) :
    (∀ id, p.Matches (g.addNode id).1.toI) ∧ ∀ s t, p.Matches (g.addEdge s t).1.toI :=
  ⟨fun id => ⟨hp.symmetric, fun x y e => (addNode_adj g hg id x y (hp.symmetric.mate_mate x y e).1).2 (hp.adj x y e)⟩,
    fun s t => ⟨hp.symmetric, fun x y e => (addEdge_adj g hg s t x y (hp.symmetric.mate_mate x y e).1).2 (.inl (hp.adj x y e))⟩⟩

/-- **C82, nodes.**  A maximum matching stays maximum when a node is added. -/
theorem C82_add_node_stays_maximum (g : DefaultGraph) (hg : g.Reachable) (id : Nat) (M : List (Nat × Nat)) :
    IsMaximum (g.addNode id).1.toI M ↔ IsMaximum g.toI M := by
  have key : ∀ M, IsMatching (g.addNode id).1.toI M ↔ IsMatching g.toI M := fun M =>
    ⟨fun h => ⟨fun e he => ⟨(h.edge e he).1, (addNode_adj g hg id _ _ (h.edge e he).1).1 (h.edge e he).2⟩, h.disjoint⟩,
     fun h => ⟨fun e he => ⟨(h.edge e he).1, (addNode_adj g hg id _ _ (h.edge e he).1).2 (h.edge e he).2⟩, h.disjoint⟩⟩
  unfold IsMaximum
  simp only [key]

/-- The matching leaves the node alone. -/
def Leaves (M : List (Nat × Nat)) (v : Nat) : Prop := ∀ e ∈ M, e.1 ≠ v ∧ e.2 ≠ v

/-- **C82, edges.**  When an edge is added, a maximum matching gets one pair larger or stays as large; it gets larger exactly if
the edge joins two different nodes that some maximum matching of the graph without it leaves alone. -/
theorem C82_add_edge_maximum (g : DefaultGraph) (hg : g.Reachable) (s t : Nat) (hok : (g.addEdge s t).2 = .ok ())
    (M M' : List (Nat × Nat)) (hM : IsMaximum g.toI M) (hM' : IsMaximum (g.addEdge s t).1.toI M') :
    (M'.length = M.length ∨ M'.length = M.length + 1) ∧
      (M'.length = M.length + 1 ↔ s ≠ t ∧ ∃ N, IsMaximum g.toI N ∧ Leaves N s ∧ Leaves N t) := by
  have up : ∀ N, IsMatching g.toI N → IsMatching (g.addEdge s t).1.toI N := fun N h =>
    ⟨fun e he => ⟨(h.edge e he).1, (addEdge_adj g hg s t _ _ (h.edge e he).1).2 (.inl (h.edge e he).2)⟩, h.disjoint⟩
  have hge := hM'.2 M (up M hM.1)
  -- a matching of the larger graph is one of the smaller, but for one pair
  have split : ∀ N, IsMatching (g.addEdge s t).1.toI N → IsMatching g.toI N ∨
      ∃ a e b, N = a ++ e :: b ∧ ((e = (s, t)) ∨ (e = (t, s))) ∧ IsMatching g.toI (a ++ b) ∧ Leaves (a ++ b) s ∧ Leaves (a ++ b) t := by
    intro N hN
    by_cases hin : ∃ e ∈ N, e = (s, t) ∨ e = (t, s)
    · obtain ⟨e, heN, hest⟩ := hin
      obtain ⟨a, b, rfl⟩ := List.append_of_mem heN
      right
      have hperm : (a ++ e :: b).Pairwise (fun e f => e.1 ≠ f.1 ∧ e.1 ≠ f.2 ∧ e.2 ≠ f.1 ∧ e.2 ≠ f.2) := hN.disjoint
      have hp2 : (e :: (a ++ b)).Pairwise (fun e f => e.1 ≠ f.1 ∧ e.1 ≠ f.2 ∧ e.2 ≠ f.1 ∧ e.2 ≠ f.2) :=
        (List.perm_middle.pairwise_iff (fun {x y} h => ⟨h.1.symm, h.2.2.1.symm, h.2.1.symm, h.2.2.2.symm⟩)).1 hperm
      rw [List.pairwise_cons] at hp2
      refine ⟨a, e, b, rfl, hest, ⟨fun f hf => ?_, hp2.2⟩, fun f hf => ?_, fun f hf => ?_⟩
      · have hfN : f ∈ a ++ e :: b := by simp at hf ⊢; tauto
        obtain ⟨h1, h2⟩ := hN.edge f hfN
        refine ⟨h1, ?_⟩
        rcases (addEdge_adj g hg s t _ _ h1).1 h2 with h | ⟨-, h⟩
        · exact h
        · exfalso
          have := hp2.1 f hf
          rcases hest with rfl | rfl <;> simp only at this <;> omega
      · have := hp2.1 f hf
        rcases hest with rfl | rfl <;> simp only at this <;> omega
      · have := hp2.1 f hf
        rcases hest with rfl | rfl <;> simp only at this <;> omega
    · left
      refine ⟨fun f hf => ?_, hN.disjoint⟩
      obtain ⟨h1, h2⟩ := hN.edge f hf
      refine ⟨h1, ?_⟩
      rcases (addEdge_adj g hg s t _ _ h1).1 h2 with h | ⟨-, h⟩
      · exact h
      · exact absurd ⟨f, hf, by
          rcases h with ⟨a, b⟩ | ⟨a, b⟩
          · exact .inl (Prod.ext a b)
          · exact .inr (Prod.ext a b)⟩ hin
  have hle : M'.length ≤ M.length + 1 := by
    rcases split M' hM'.1 with h | ⟨a, e, b, rfl, -, h, -⟩
    · have := hM.2 M' h; omega
    · have := hM.2 _ h; simp at this ⊢; omega
  refine ⟨by omega, fun hl => ?_, ?_⟩
  · rcases split M' hM'.1 with h | ⟨a, e, b, rfl, hest, h, l1, l2⟩
    · have := hM.2 M' h; omega
    · refine ⟨?_, a ++ b, ⟨h, fun N hN => ?_⟩, l1, l2⟩
      · have := (hM'.1.edge e (by simp)).1
        rcases hest with rfl | rfl
        · exact this
        · exact fun e => this e.symm
      · have := hM.2 N hN
        simp at hl ⊢
        omega
  · rintro ⟨hst, N, hN, l1, l2⟩
    have : IsMatching (g.addEdge s t).1.toI ((s, t) :: N) := by
      refine ⟨fun e he => ?_, List.pairwise_cons.2 ⟨fun f hf => ?_, hN.1.disjoint⟩⟩
      · rcases List.mem_cons.1 he with rfl | he
        · exact ⟨hst, (addEdge_adj g hg s t s t hst).2 (.inr ⟨hok, .inl ⟨rfl, rfl⟩⟩)⟩
        · exact (up N hN.1).edge e he
      · have h1 := l1 f hf
        have h2 := l2 f hf
        simp only
        omega
    have h1 := hM'.2 _ this
    have h2 := hN.2 M hM.1
    simp at h1
    omega

section
variable (g : DefaultGraph) (hg : g.Reachable) (p : Pairing) (hp : p.Matches g.toI) (ord : HashOrder) (hord : ord.Valid)
  (hmax : IsMaximum g.toI (p.edges ord)) (pf : Platform) (ords : List Bool → Nat → HashOrder) (ho : ∀ l i, (ords l i).Valid)
include hg hp hord hmax ho

/-- **C82, matching again after adding an edge.**  If `p` was a maximum matching, `maximum_matching` on the graph with the new
edge finds, if it returns, one pair more if the edge joins two nodes that some maximum matching left alone, and otherwise as many
as before. -/
theorem C82_again_after_add_edge (s t : Nat) (hok : (g.addEdge s t).2 = .ok ()) (fuel : Nat) (q : Pairing)
    (h : maximumMatching pf fuel ords (g.addEdge s t).1.toI p = .ok q) :
    ((q.edges ord).length = (p.edges ord).length ∨ (q.edges ord).length = (p.edges ord).length + 1) ∧
    ((q.edges ord).length = (p.edges ord).length + 1 ↔ s ≠ t ∧ ∃ N, IsMaximum g.toI N ∧ Leaves N s ∧ Leaves N t) := by
  have hr := DefaultGraph.Reachable.addEdge g s t hg
  exact C82_add_edge_maximum g hg s t hok _ _ hmax (C39_result_is_maximum _ hr.lawful hr.loopExact.nodup p
    ((C82_stays_matching g hg p hp).2 s t) pf ords ho fuel q h ord hord)

/-- **C82, the effort.**  Where no two odd cycles share a node (in the graph with the new edge), that takes one search if no pair is
gained, and three searches and one augmentation if one is; the nodes that were paired stay paired. -/
theorem C82_again_cheap (s t : Nat) (hok : (g.addEdge s t).2 = .ok ()) (hA : (g.addEdge s t).1.toI.OddCyclesApart)
    (hh : Headroom pf (g.addEdge s t).1.toI) :
    ∃ N, ∀ fuel, N ≤ fuel → ∃ q T, maximumMatchingTally pf fuel ords (g.addEdge s t).1.toI p = .ok (q, T) ∧
      (∀ x, p.hasNode x = true → q.hasNode x = true) ∧
      ((q.order = p.order ∧ T = ⟨1, 0, 1⟩) ∨ (q.order = p.order + 2 ∧ T = ⟨3, 1, 2⟩)) := by
  have hr := DefaultGraph.Reachable.addEdge g s t hg
  have hp' := (C82_stays_matching g hg p hp).2 s t
  obtain ⟨N, hN⟩ := C49_total_where_odd_cycles_apart _ hr.lawful hr.loopExact.nodup hA p hp' pf hh ords ho
  refine ⟨N, fun fuel hf => ?_⟩
  obtain ⟨q, e, hq, hc, hm⟩ := hN fuel hf
  obtain ⟨T, hT⟩ := ((C81_same_outcome pf fuel ords _ p).1 q).1 e
  refine ⟨q, T, hT, hc, ?_⟩
  obtain ⟨h1, h2, h3⟩ := C81_exact_odd_cycles_apart _ hr.lawful hr.loopExact.nodup p pf ords ho hA hp' fuel q T hT ord hord _ (hm ord hord)
  obtain ⟨h4, -⟩ := C82_again_after_add_edge g hg p hp ord hord hmax pf ords ho s t hok fuel q e
  have h5 := order_eq hord hp.symmetric
  have h6 := order_eq hord hq.symmetric
  obtain ⟨a, b, c⟩ := T
  simp only at h1 h2 h3
  rcases h4 with h4 | h4
  · left
    refine ⟨by omega, ?_⟩
    congr <;> omega
  · right
    refine ⟨by omega, ?_⟩
    congr <;> omega

end

/-! #### Examples -/

/-- 0-1-2 with 1-2 paired, and two more nodes 3, 4: adding 2-3 changes the size of a maximum matching, because 0-1 is maximum
too, and leaves 2 and 3 alone. -/
def growG : DefaultGraph := built 5 [(0, 1), (1, 2)]

theorem grow_maximum : (pairingOf [(1, 2)]).Matches growG.toI ∧ IsMaximum growG.toI ((pairingOf [(1, 2)]).edges _root_.id) := by
  have hm : (pairingOf [(1, 2)]).Matches growG.toI := matches_of_test (by decide +kernel)
  exact ⟨hm, C39_result_is_maximum growG.toI (built_reachable _ _).lawful (built_reachable _ _).loopExact.nodup _ hm (pf64 true)
    (fun _ _ => _root_.id) (fun _ _ => HashOrder.id_valid) 16 _ (by decide +kernel) _root_.id HashOrder.id_valid⟩

example : growG.Reachable ∧ (growG.addEdge 2 3).2 = .ok () ∧ (growG.addEdge 0 3).2 = .ok () ∧
    (∀ b, ∃ q, maximumMatchingTally (pf64 b) 16 (fun _ _ => _root_.id) (growG.addEdge 2 3).1.toI (pairingOf [(1, 2)]) =
      .ok (q, ⟨3, 1, 2⟩) ∧ q.edges _root_.id = [(0, 1), (2, 3)]) ∧
    (∀ b, ∃ q, maximumMatchingTally (pf64 b) 16 (fun _ _ => _root_.id) (growG.addEdge 2 0).1.toI (pairingOf [(1, 2)]) =
      .ok (q, ⟨1, 0, 1⟩)) := by
  refine ⟨built_reachable _ _, by decide +kernel, by decide +kernel, fun b => ⟨⟨[(0, 1), (1, 0), (2, 3), (3, 2)]⟩, ?_, by decide +kernel⟩,
    fun b => ⟨pairingOf [(1, 2)], by revert b; decide +kernel⟩⟩
  revert b; decide +kernel

/-- The graph with the edge 2-3 is a path, so has no odd cycle. -/
example : (∀ u v, (growG.addEdge 2 3).1.toI.Adj u v → (u % 2 == 0) ≠ (v % 2 == 0)) ∧ ∀ b, Headroom (pf64 b) (growG.addEdge 2 3).1.toI := by
  have hn : (growG.addEdge 2 3).1.toI.nodes = [0, 1, 2, 3, 4] := by decide +kernel
  refine ⟨fun u v h => ?_, fun b => headroom_of (by cases b <;> decide +kernel)⟩
  have key : ∀ u ∈ [0, 1, 2, 3, 4], ∀ v ∈ (growG.addEdge 2 3).1.toI.nbr u, (u % 2 == 0) ≠ (v % 2 == 0) := by decide +kernel
  exact key u (hn ▸ (DefaultGraph.Reachable.addEdge _ 2 3 (built_reachable _ _)).lawful.adj_src h) v (GraphI.mem_nbr.2 h)

end Gamma
