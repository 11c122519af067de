import Verif.Proofs.GreedyComplete
import Verif.Props.Deep
/-
Property C99: `greedy` finds a single pair in complete graphs whose neighbors are listed in order.
-/
namespace Gamma
open Pairing DefaultGraph

section
variable (g : GraphI) (hg : g.Lawful) (n : Nat) (hn : 2 ≤ n) (hnodes : g.nodes = List.range n)
  (hnb : ∀ u, u < n → g.neighbors u = .ok ((List.range n).filter (· != u)))
include hg hnodes hnb

theorem adj_of_rows (u v : Nat) : g.Adj u v ↔ u < n ∧ v < n ∧ u ≠ v := by
  constructor
  · rintro h
    have hu := hg.adj_src h
    rw [hnodes, List.mem_range] at hu
    obtain ⟨l, hl, hv⟩ := h
    rw [hnb u hu] at hl; injection hl with hl; subst hl
    simp at hv
    exact ⟨hu, hv.1, fun e => hv.2 e.symm⟩
  · rintro ⟨hu, hv, hne⟩
    exact ⟨_, hnb u hu, by simp; exact ⟨hv, fun e => hne e.symm⟩⟩

/-- **C99, the traversal.**  Depth-first traversal of a complete graph, whose nodes are `0 … n-1` and are listed in order among the
nodes and the neighbors of each node, from 0: it discovers the nodes in order, and goes back from each to all but its parent. -/
theorem C99_traversal (h0 : 0 < n) : DepthFirst.Run g 0 ((List.range' 1 (n - 1)).flatMap fun u =>
    ⟨u - 1, u, false⟩ :: (List.range (u - 1)).map fun x => ⟨u, x, true⟩) :=
  DepthFirst.up_run hnb h0

include hn
/-- **C99, one pair.**  There `greedy` pairs 0 with 1 and nothing else, however many nodes there are. -/
theorem C99_one_pair (p : Pairing) (hp : GreedyReturns g p) (u v : Nat) :
    p.mate u = .ok v ↔ (u = 0 ∧ v = 1) ∨ (u = 1 ∧ v = 0) := by
  have hadj := adj_of_rows g hg n hnodes hnb
  have hl : g.Loopless := fun v hv => ((hadj v v).1 hv).2.2 rfl
  obtain ⟨p', hp', hm, -⟩ := C30_greedy_matching g hg hl.noDoubleLoop
  have hpp : p' = p := by
    obtain ⟨N, hN⟩ := hp; obtain ⟨M, hM⟩ := hp'
    have h1 := hN (max N M) (le_max_left _ _)
    have h2 := hM (max N M) (le_max_right _ _)
    rw [h1] at h2; injection h2 with h2; exact h2.symm
  subst hpp
  have hcons : g.nodes = 0 :: List.range' 1 (n - 1) := by
    obtain ⟨m, rfl⟩ : ∃ m, n = m + 1 := ⟨n - 1, by omega⟩
    rw [hnodes, List.range_eq_range', List.range'_succ]; simp
  -- the first pair
  have h01 : p'.mate 0 = .ok 1 := by
    refine C57_greedy_pairs_first g hg hl p' hp 0 (by rw [hcons]; simp) ?_ 1 (List.range' 2 (n - 2)) ?_
    · intro x hx
      have hnd := hg.nodes_nodup
      rw [hcons] at hx hnd
      rw [List.nodup_cons] at hnd
      cases hx with
      | cons _ hx => exact absurd (hx.subset (by simp)) hnd.1
      | cons_cons _ hx => exact absurd (hx.subset (by simp)) hnd.1
    · rw [hnb 0 (by omega), DepthFirst.range_split (by omega)]
      obtain ⟨m, rfl⟩ : ∃ m, n = m + 2 := ⟨n - 2, by omega⟩
      simp [List.range'_succ]
  have h10 := (hm.symmetric.mate_mate 0 1 h01).2
  set S := (List.range' 1 (n - 1)).flatMap DepthFirst.upSteps with hS
  have hrun : DepthFirst.Run g 0 S := DepthFirst.up_run hnb (by omega)
  -- the components
  have hK : g.Complete := fun u hu v hv hne => by
    rw [hnodes, List.mem_range] at hu hv; exact (hadj u v).2 ⟨hu, hv, hne⟩
  have hM := (C98_classes g hg).1 hK
  obtain ⟨comps, hc, -⟩ := C27_components_ends g hg hl.noDoubleLoop
  obtain ⟨rc, hr, rfl⟩ := Components.run_iff hg.directed hc
  obtain ⟨e, rfl, he⟩ : ∃ e, rc = [e] ∧ e.1 = 0 := by
    cases rc with
    | nil => obtain ⟨x, hx, -⟩ := hr.cover 0 (by rw [hcons]; simp); simp at hx
    | cons a rest =>
      have hmem : a.1 ∈ g.nodes := hr.roots.subset (by simp)
      have ha : a.1 = 0 := by
        by_contra hne
        rw [hcons] at hmem
        have hsub : [0, a.1].Sublist g.nodes := by
          rw [hcons]
          exact (List.singleton_sublist.2 ((List.mem_cons.1 hmem).resolve_left hne)).cons_cons _
        obtain ⟨x, hx, -⟩ := hr.earlier [] a rest rfl 0 hsub
        simp at hx
      refine ⟨a, ?_, ha⟩
      cases rest with
      | nil => rfl
      | cons b rest =>
        exfalso
        have hf := hr.fresh
        rw [List.pairwise_cons] at hf
        apply hf.1 b (by simp)
        have hb : b.1 ∈ g.nodes := hr.roots.subset (by simp)
        refine (((C98_components g hg hM _ hc).1 a.2 (by simp) a.1 ((hr.comp a (by simp)).root_mem) b.1)).2 ?_
        by_cases hab : a.1 = b.1
        · rw [hab]
        · exact SimpleGraph.Adj.reachable ((hg.simple_adj).2 ⟨hab, hK _ hmem _ hb hab⟩)
  have hi := hr.comp e (by simp)
  have hlaw := hi.lawful
  have hcl : e.2.toI.Loopless := fun v hv => hl v (hi.adj hg hv)
  obtain ⟨S', h1, h2, h3⟩ := hi.run
  rw [he] at h1 h2
  obtain rfl : S' = S := DepthFirst.run_unique h1 hrun
  have hmemS : ∀ s : Step, s ∈ S ↔ ∃ k, 1 ≤ k ∧ k < n ∧ s ∈ DepthFirst.upSteps k := by
    intro s
    rw [hS, List.mem_flatMap]
    simp only [List.mem_range'_1]
    constructor
    · rintro ⟨k, hk, h⟩; exact ⟨k, hk.1, by omega, h⟩
    · rintro ⟨k, hk, hk', h⟩; exact ⟨k, ⟨hk, by omega⟩, h⟩
  have hin : ∀ u v, u < v → v < n → (u, v) ∈ e.2.edges ∨ (v, u) ∈ e.2.edges := by
    intro u v huv hv
    rw [h3]
    by_cases h : v = u + 1
    · left
      exact List.mem_map.2 ⟨⟨u, v, false⟩, (hmemS _).2 ⟨v, by omega, hv, by subst h; simp [DepthFirst.upSteps]⟩, rfl⟩
    · right
      refine List.mem_map.2 ⟨⟨v, u, true⟩, (hmemS _).2 ⟨v, by omega, hv, ?_⟩, rfl⟩
      simp [DepthFirst.upSteps]; omega
  have hall : ∀ u v, g.Adj u v → e.2.toI.Adj u v := by
    intro u v h
    obtain ⟨hu, hv, hne⟩ := (hadj u v).1 h
    rw [Components.adj_iff_edges hi.built]
    rcases Nat.lt_or_gt_of_ne hne with h | h
    · exact hin u v h hv
    · exact (hin v u h hu).symm
  obtain ⟨T, hT⟩ := DepthFirst.run_run hlaw (show (0 : Nat) ∈ e.2.toI.nodes by have := hi.root_mem; rwa [he] at this)
  have hTS : T = S := by
    refine DepthFirst.rerun hg hlaw hl hcl h1 hT (fun u hu v => ⟨hall u v, hi.adj hg⟩) ?_
    intro u hu
    have := hi.ordered u (by rw [h2]; exact hu)
    unfold GraphI.nbr
    rw [show e.2.toI.neighbors u = e.2.neighbors u from rfl, this, h3]
  rw [hTS] at hT
  have hcm : ∀ x, x < n → x ∈ e.2.nodes := by
    intro x hx
    obtain ⟨e', he', h⟩ := hr.cover x (by rw [hnodes]; simpa using hx)
    simp at he'; rwa [he'] at h
  obtain ⟨-, hdown, hfree⟩ := C78_down_the_tree g hg.directed p' hp [] [] e.2 hc (by simp) S
    ⟨0, by have := hi.head; rwa [he] at this, hT⟩
  -- the first step from a node is back to 0
  have hfirst : ∀ k, 2 ≤ k → k < n → S.find? (fun s => s.sid == k) = some ⟨k, 0, true⟩ := by
    intro k hk hkn
    have hsp : List.range' 1 (n - 1) = List.range' 1 (k - 1) ++ (k :: List.range' (k + 1) (n - k - 1)) := by
      rw [← List.range'_succ]
      have := List.range'_append (s := 1) (m := k - 1) (n := n - k - 1 + 1) (step := 1)
      rw [one_mul, show 1 + (k - 1) = k by omega] at this
      rw [this]; congr 1; omega
    rw [hS, hsp, List.flatMap_append, List.flatMap_cons, List.find?_append]
    have hnone : ((List.range' 1 (k - 1)).flatMap DepthFirst.upSteps).find? (fun s => s.sid == k) = none := by
      rw [List.find?_eq_none]
      intro s hs
      obtain ⟨j, hj, hs⟩ := List.mem_flatMap.1 hs
      rw [List.mem_range'_1] at hj
      simp only [DepthFirst.upSteps, List.mem_cons, List.mem_map] at hs
      rcases hs with rfl | ⟨x, -, rfl⟩ <;> simp <;> omega
    obtain ⟨j, rfl⟩ : ∃ j, k = j + 2 := ⟨k - 2, by omega⟩
    rw [hnone, Option.none_or]
    simp [DepthFirst.upSteps, List.range_succ_eq_map]
  have hunpaired : ∀ k, 2 ≤ k → k < n → p'.hasNode k = false := by
    intro k hk hkn
    rw [hfree k (hcm k hkn)]
    refine ⟨?_, ?_⟩
    · intro w hw hmate
      obtain ⟨j, hj, hjn, hw'⟩ := (hmemS _).1 hw
      simp only [DepthFirst.upSteps, List.mem_cons, Step.mk.injEq, List.mem_map] at hw'
      rcases hw' with ⟨rfl, rfl, -⟩ | ⟨x, -, -, -, h⟩
      · by_cases h2 : k = 2
        · subst h2
          rw [show (2 - 1 : Nat) = 1 from rfl, h10] at hmate
          injection hmate with hmate; omega
        · have := ((hdown (k - 1) k hw).1 hmate).1
          rw [hfirst (k - 1) (by omega) (by omega)] at this
          simp at this
      · simp at h
    · intro s hs
      rw [hfirst k hk hkn] at hs
      injection hs with hs; subst hs; rfl
  constructor
  · intro h
    have hu : u < n := ((hadj u v).1 (hm.adj u v h)).1
    have hlt : u < 2 := by
      by_contra hge
      have := hunpaired u (by omega) hu
      rw [hasNode_false, mate_eq_ok.1 h] at this
      simp at this
    rcases Nat.lt_or_ge u 1 with h0 | h0
    · obtain rfl : u = 0 := by omega
      rw [h01] at h; injection h with h; exact .inl ⟨rfl, h.symm⟩
    · obtain rfl : u = 1 := by omega
      rw [h10] at h; injection h with h; exact .inr ⟨rfl, h.symm⟩
  · rintro (⟨rfl, rfl⟩ | ⟨rfl, rfl⟩)
    · exact h01
    · exact h10

end

/-- The complete graph with `n` nodes as an adjacency list: each node lists all others, in order. -/
def completeRows (n : Nat) : List (List Nat) := (List.range n).map fun u => (List.range n).filter (· != u)

/-- **C99, any number.**  The adjacency list of the complete graph with `n` nodes is accepted; of the graph it converts to, `greedy`
returns a single pair, however hash maps are iterated, though it has matchings with `n / 2` pairs. -/
theorem C99_complete (n : Nat) (hn : 2 ≤ n) : ∃ g, tryFromAdjacency (completeRows n) = .ok g ∧ g.toI.Lawful ∧ g.toI.order = n ∧
    g.toI.Complete ∧ ∃ p, GreedyReturns g.toI p ∧ (∀ ord : HashOrder, ord.Valid → p.edges ord = [(0, 1)]) ∧
    ∃ M, IsMatching g.toI M ∧ M.length = n / 2 := by
  have hget : ∀ i row, (completeRows n)[i]? = some row ↔ i < n ∧ row = (List.range n).filter (· != i) := by
    intro i row
    simp only [completeRows, List.getElem?_map, Option.map_eq_some_iff, List.getElem?_eq_some_iff, List.length_range,
      List.getElem_range]
    constructor
    · rintro ⟨a, ⟨h, rfl⟩, rfl⟩; exact ⟨h, rfl⟩
    · rintro ⟨h, rfl⟩; exact ⟨i, ⟨h, rfl⟩, rfl⟩
  have hlen : (completeRows n).length = n := by simp [completeRows]
  have hv : ValidAdjacency (completeRows n) := by
    refine ⟨?_, ?_, ?_⟩
    · intro i row h t ht
      obtain ⟨-, rfl⟩ := (hget i row).1 h
      simp at ht; rw [hlen]; exact ht.1
    · intro i row h
      obtain ⟨-, rfl⟩ := (hget i row).1 h
      exact List.nodup_range.filter _
    · intro i row h t ht row' h'
      obtain ⟨hi, rfl⟩ := (hget i row).1 h
      obtain ⟨-, rfl⟩ := (hget t row').1 h'
      simp at ht ⊢
      exact ⟨hi, fun e => ht.2 e.symm⟩
  obtain ⟨g, hgk⟩ := (C09_adjacency _).1.2 hv
  obtain ⟨h1, h2, -⟩ := (C09_adjacency _).2 g hgk
  rw [hlen] at h1
  have hL : g.toI.Lawful := reachable_lawful _ (.fromAdjacency _ _ hgk)
  have hnb : ∀ u, u < n → g.toI.neighbors u = .ok ((List.range n).filter (· != u)) := fun u hu => h2 u _ ((hget u _).2 ⟨hu, rfl⟩)
  have hadj := adj_of_rows g.toI hL n h1 hnb
  have hl : g.toI.Loopless := fun v hv => ((hadj v v).1 hv).2.2 rfl
  obtain ⟨p, hp, hm, -⟩ := C30_greedy_matching g.toI hL hl.noDoubleLoop
  have hone := C99_one_pair g.toI hL n hn h1 hnb p hp
  refine ⟨g, hgk, hL, ?_, ?_, p, hp, ?_, (List.range (n / 2)).map (fun i => (2 * i, 2 * i + 1)), ⟨?_, ?_⟩, by simp⟩
  · rw [hL.order_eq, show g.toI.nodes = _ from h1]; simp
  · intro u hu v hv hne
    rw [show g.toI.nodes = _ from h1, List.mem_range] at hu hv
    exact (hadj u v).2 ⟨hu, hv, hne⟩
  · intro ord ho
    obtain ⟨hmem, hnd, -⟩ := C34_edges p hm.symmetric ord ho
    have : ∀ e, e ∈ p.edges ord ↔ e = (0, 1) := by
      rintro ⟨a, b⟩
      rw [hmem, hone]
      simp
      omega
    cases hE : p.edges ord with
    | nil => have := (this (0, 1)).2 rfl; rw [hE] at this; simp at this
    | cons a l =>
      rw [hE] at this hnd
      obtain rfl := (this a).1 (by simp)
      cases l with
      | nil => rfl
      | cons b l =>
        obtain rfl := (this b).1 (by simp)
        simp at hnd
  · intro e he
    obtain ⟨i, hi, rfl⟩ := List.mem_map.1 he
    simp at hi
    exact ⟨by simp, (hadj _ _).2 ⟨by simp; omega, by simp; omega, by simp⟩⟩
  · rw [List.pairwise_map]
    refine List.Pairwise.imp ?_ (List.nodup_range)
    intro a b hab
    simp; omega

/-- **C99, and then `maximum_matching`.**  Started from that single pair, `maximum_matching` returns, for every large enough budget,
with all nodes paired but the odd one. -/
theorem C99_then_maximum (n : Nat) (hn : 2 ≤ n) (pf : Platform) (ords : List Bool → Nat → HashOrder) (ho : ∀ l i, (ords l i).Valid) :
    ∃ g p, tryFromAdjacency (completeRows n) = .ok g ∧ GreedyReturns g.toI p ∧ p.order = 2 ∧
    (Headroom pf g.toI → ∃ N, ∀ fuel, N ≤ fuel → ∃ q, maximumMatching pf fuel ords g.toI p = .ok q ∧ q.Matches g.toI ∧
      q.order = n - n % 2) := by
  obtain ⟨g, hgk, hL, hord, hK, p, hp, hE, -⟩ := C99_complete n hn
  have hR : g.Reachable := .fromAdjacency _ _ hgk
  have hl : g.toI.Loopless := by
    intro v hv
    obtain ⟨l, hl, hvl⟩ := hv
    have hv' := hL.adj_src ⟨l, hl, hvl⟩
    obtain ⟨h1, h2, -⟩ := (C09_adjacency _).2 g hgk
    have hvn : v < n := by
      rw [show g.toI.nodes = _ from h1] at hv'
      simpa [completeRows] using hv'
    have := h2 v ((List.range n).filter (· != v)) (by simp [completeRows, hvn])
    rw [show g.toI.neighbors v = _ from this] at hl
    injection hl with hl
    subst hl
    simp at hvl
  obtain ⟨p', hp', hm, -⟩ := C30_greedy_matching g.toI hL hl.noDoubleLoop
  have hpp : p' = p := by
    obtain ⟨N, hN⟩ := hp; obtain ⟨M, hM⟩ := hp'
    have h1 := hN (max N M) (le_max_left _ _)
    have h2 := hM (max N M) (le_max_right _ _)
    rw [h1] at h2; injection h2 with h2; exact h2.symm
  subst hpp
  refine ⟨g, p', hgk, hp, ?_, fun hh => ?_⟩
  · have := order_eq HashOrder.id_valid hm.symmetric
    rw [hE _ HashOrder.id_valid] at this
    simpa using this
  · obtain ⟨N, hN⟩ := C86_total_complete g.toI hL hR.loopExact.nodup hK p' hm pf hh ords ho
    refine ⟨N, fun fuel hf => ?_⟩
    obtain ⟨q, h1, h2, -, -, h3⟩ := hN fuel hf
    exact ⟨q, h1, h2, by rw [h3, hord]⟩

end Gamma
