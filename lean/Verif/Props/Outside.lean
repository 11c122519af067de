import Verif.Proofs.Outside
import Verif.Props.Matching
/-
Property C70: `maximum_matching` on a graph with a pairing that also pairs nodes of other graphs, as when one pairing is
shared by the components of a graph.
-/
namespace Gamma
open Pairing Blossom

/-! ### C70 -/

/-- Two outcomes of `maximum_matching(g, _)`, the second from a pairing `q` with pairs outside `g`: the results pair the
nodes of `g` alike, and the second pairs all other ids as `q` does. -/
def SameInside (g : GraphI) (q : Pairing) : Out Pairing → Out Pairing → Prop :=
  Out.SameBy (fun p' q' => p'.Matches g ∧ q'.Symmetric ∧ (∀ v ∈ g.nodes, q'.mate v = p'.mate v) ∧
    ∀ v, v ∉ g.nodes → q'.mate v = q.mate v)

theorem sameInside_of {g : GraphI} {q : Pairing} {o o' : Out Pairing}
    (h : (∃ p' q', o = .ok p' ∧ o' = .ok q' ∧ p'.Matches g ∧ q'.Extends p' g ∧ ∀ v, v ∉ g.nodes → q'.get v = q.get v) ∨
      (∃ m, o = .panic m ∧ o' = .panic m) ∨ (o = .timeout ∧ o' = .timeout)) : SameInside g q o o' := by
  rcases h with ⟨p', q', rfl, rfl, hm, hx, ho⟩ | ⟨m, rfl, rfl⟩ | ⟨rfl, rfl⟩
  · exact ⟨hm, hx.symmetric, hx.same, fun v hv => mate_eq_iff.2 (ho v hv)⟩
  · exact rfl
  · exact trivial

/-- **C70.**  Let a pairing `q` pair the nodes of `g` along edges of `g`, and pair other ids too, but none of the `depth`
ids that follow the largest node id of `g`.  Then `maximum_matching(g, q)` ends as `maximum_matching` does on the entries
of `q` for `g` alone; if it returns, it has done the same to the nodes of `g`, and nothing to the others. -/
theorem C70_outside_pairs (g : GraphI) (hg : g.Lawful) (he : g.edges.Nodup) (q : Pairing) (hs : q.Symmetric)
    (ha : ∀ v ∈ g.nodes, ∀ w, q.mate v = .ok w → g.Adj v w) (hc : q.Clear g) (pf : Platform) (hh : Headroom pf g)
    (ords ords' : List Bool → Nat → HashOrder) (ho : ∀ l i, (ords l i).Valid) (ho' : ∀ l i, (ords' l i).Valid) (fuel : Nat) :
    (q.within g.nodes).Matches g ∧
      SameInside g q (maximumMatching pf fuel ords g (q.within g.nodes)) (maximumMatching pf fuel ords' g q) := by
  obtain ⟨h1, h2⟩ := within_matches hg hs ha
  refine ⟨h1, sameInside_of ?_⟩
  exact maximumMatching_outside (K := fun q => q.Clear g) hg he (fun q q1 hq off => hq.of_off off)
    (fun p q ords ords' n hp hq hk ho ho' => augmentingPath_outside ho ho' n hg he hp hq hk hh) fuel h1 h2 hc ho ho'

/-- **C70, bipartite graphs**: no blossom, so no condition on the other ids. -/
theorem C70_outside_pairs_bipartite (g : GraphI) (hg : g.Lawful) (he : g.edges.Nodup) (col : Nat → Bool)
    (hcol : ∀ u v, g.Adj u v → col u ≠ col v) (q : Pairing) (hs : q.Symmetric)
    (ha : ∀ v ∈ g.nodes, ∀ w, q.mate v = .ok w → g.Adj v w) (pf : Platform)
    (ords ords' : List Bool → Nat → HashOrder) (ho : ∀ l i, (ords l i).Valid) (ho' : ∀ l i, (ords' l i).Valid) (fuel : Nat) :
    (q.within g.nodes).Matches g ∧
      SameInside g q (maximumMatching pf fuel ords g (q.within g.nodes)) (maximumMatching pf fuel ords' g q) := by
  obtain ⟨h1, h2⟩ := within_matches hg hs ha
  refine ⟨h1, sameInside_of ?_⟩
  exact maximumMatching_outside (K := fun _ => True) hg he (fun _ _ _ _ => trivial)
    (fun p q ords ords' n hp hq _ ho ho' => augmentingPath_outside_bip hg hp hq hcol ho ho' n) fuel h1 h2 trivial ho ho'

/-- The edges among the nodes of `g` of a pairing that extends one of `g` are those of the one it extends. -/
theorem edges_inside {g : GraphI} (hg : g.Lawful) {p q : Pairing} (hp : p.Matches g) (hs : q.Symmetric)
    (hq : ∀ v ∈ g.nodes, q.mate v = p.mate v) {ord ord' : HashOrder} (ho : ord.Valid) (ho' : ord'.Valid) :
    ((q.edges ord').filter (fun e => g.nodes.contains e.1)).Perm (p.edges ord) := by
  rw [List.perm_ext_iff_of_nodup ((edges_nodup ho' hs).filter _) (edges_nodup ho hp.symmetric)]
  rintro ⟨a, c⟩
  rw [List.mem_filter, mem_edges ho' hs, mem_edges ho hp.symmetric]
  simp only [List.contains_iff_mem]
  constructor
  · rintro ⟨⟨h1, h2⟩, h3⟩
    exact ⟨h1, by rw [← mate_eq_iff.1 (hq a h3)]; exact h2⟩
  · rintro ⟨h1, h2⟩
    have h3 := hp.mem_left hg h2
    exact ⟨⟨h1, by rw [mate_eq_iff.1 (hq a h3)]; exact h2⟩, h3⟩

/-- **C70, what it is for.**  If it returns, the pairs among the nodes of `g` are a maximum matching of `g`, and all other
ids are paired as before. -/
theorem C70_maximum_inside (g : GraphI) (hg : g.Lawful) (he : g.edges.Nodup) (q : Pairing) (hs : q.Symmetric)
    (ha : ∀ v ∈ g.nodes, ∀ w, q.mate v = .ok w → g.Adj v w) (hc : q.Clear g) (pf : Platform) (hh : Headroom pf g)
    (ords : List Bool → Nat → HashOrder) (ho : ∀ l i, (ords l i).Valid) (fuel : Nat) (q' : Pairing)
    (h : maximumMatching pf fuel ords g q = .ok q') :
    q'.Symmetric ∧ (∀ v ∈ g.nodes, ∀ w, q'.mate v = .ok w → g.Adj v w) ∧ (∀ v, v ∉ g.nodes → q'.mate v = q.mate v) ∧
      ∀ ord : HashOrder, ord.Valid → IsMaximum g ((q'.edges ord).filter (fun e => g.nodes.contains e.1)) := by
  obtain ⟨h1, h2⟩ := C70_outside_pairs g hg he q hs ha hc pf hh ords ords ho ho fuel
  rw [h] at h2
  cases e : maximumMatching pf fuel ords g (q.within g.nodes) with
  | ok p' =>
    rw [e] at h2
    obtain ⟨k1, k2, k3, k4⟩ := h2
    refine ⟨k2, fun v hv w hw => k1.adj v w (by rw [← k3 v hv]; exact hw), k4, fun ord hord => ?_⟩
    have hperm := edges_inside hg k1 k2 k3 hord hord
    have hmax := C39_result_is_maximum g hg he _ h1 pf ords ho fuel p' e ord hord
    refine ⟨⟨?_, ?_⟩, fun M hM => ?_⟩
    · intro x hx; exact hmax.1.edge x (hperm.mem_iff.1 hx)
    · exact (edges_disjoint hord k2).filter _
    · rw [hperm.length_eq]; exact hmax.2 M hM
  | err _ => rw [e] at h2; exact h2.elim
  | panic _ => rw [e] at h2; exact h2.elim
  | timeout => rw [e] at h2; exact h2.elim

/-! #### Examples and counterexamples -/

/-- A triangle 0-1-2 with a tail 2-3; the pair 4-5 belongs to another graph. -/
def sharedG : DefaultGraph := graphOf [(0, 1), (1, 2), (2, 0), (2, 3)]

/-- **The condition on ids is needed**: with a pair of the ids 4 and 5, which follow those of the graph, the call panics,
though without that pair it returns. -/
theorem C70_clash_panics (b : Bool) :
    maximumMatching (pf64 b) 14 (fun _ _ => id) sharedG.toI (pairingOf [(0, 1), (4, 5)]) = .panic "neighbors of v" ∧
    maximumMatching (pf64 b) 14 (fun _ _ => id) sharedG.toI (pairingOf [(4, 5)]) = .panic "neighbors of v" ∧
    maximumMatching (pf64 b) 14 (fun _ _ => id) sharedG.toI (pairingOf [(0, 1)]) = .ok (pairingOf [(0, 1), (2, 3)]) := by
  revert b; decide +kernel

/-- A decidable test for `Pairing.Clear`. -/
theorem clear_of_test {q : Pairing} {g : GraphI} (h : q.pairs.all (fun e => g.nodes.any (fun u => decide (e.1 ≤ u)) ||
    g.nodes.all (fun u => decide (u + g.depth < e.1))) = true) : q.Clear g := by
  intro v w e
  have := List.all_eq_true.1 h (v, w) (HMap.mem_of_get (mate_eq_ok.1 e))
  simpa using this

/-- The hypotheses of the theorems above hold of this graph and a pairing with a pair of other ids; and the run returns. -/
example : sharedG.toI.Lawful ∧ sharedG.toI.edges.Nodup ∧ (pairingOf [(0, 1), (6, 7)]).Symmetric ∧
    (∀ v ∈ sharedG.toI.nodes, ∀ w, (pairingOf [(0, 1), (6, 7)]).mate v = .ok w → sharedG.toI.Adj v w) ∧
    (pairingOf [(0, 1), (6, 7)]).Clear sharedG.toI ∧ Headroom (pf64 true) sharedG.toI ∧
    ¬ (pairingOf [(0, 1), (4, 5)]).Clear sharedG.toI ∧
    maximumMatching (pf64 true) 14 (fun _ _ => id) sharedG.toI (pairingOf [(0, 1), (6, 7)]) =
      .ok (pairingOf [(0, 1), (6, 7), (2, 3)]) := by
  have hm : (pairingOf [(0, 1), (6, 7)]).Matches (graphOf [(0, 1), (6, 7)]).toI := matches_of_test (by decide +kernel)
  refine ⟨graphOf_lawful _, graphOf_edges _, hm.symmetric, ?_, clear_of_test (by decide +kernel), headroom_of (by decide +kernel),
    ?_, by decide +kernel⟩
  · intro v hv w e
    have h1 : v ∈ [0, 1, 2, 3] := by
      have : sharedG.toI.nodes = [0, 1, 2, 3] := by decide +kernel
      rw [← this]; exact hv
    have h2 := HMap.mem_of_get (mate_eq_ok.1 e)
    have : (pairingOf [(0, 1), (6, 7)]).pairs = [(7, 6), (6, 7), (1, 0), (0, 1)] := by decide +kernel
    rw [this] at h2
    simp only [List.mem_cons, Prod.mk.injEq, List.not_mem_nil, or_false] at h1 h2
    have key : sharedG.toI.Adj 0 1 ∧ sharedG.toI.Adj 1 0 := by
      constructor <;> exact GraphI.mem_nbr.1 (by decide +kernel)
    rcases h2 with ⟨rfl, rfl⟩ | ⟨rfl, rfl⟩ | ⟨rfl, rfl⟩ | ⟨rfl, rfl⟩
    · omega
    · omega
    · exact key.2
    · exact key.1
  · intro h
    rcases h 4 5 (by decide +kernel) with ⟨u, hu, hle⟩ | h
    · have : ∀ u ∈ sharedG.toI.nodes, u < 4 := by decide +kernel
      have := this u hu; omega
    · have := h 3 (by decide +kernel)
      have hd : sharedG.toI.depth = 2 := by decide +kernel
      omega

/-- The bipartite case: a path 0-1-2, of which 0-1 is paired, and the pair 3-4, of ids right after those of the graph. -/
example : (graphOf [(0, 1), (1, 2)]).toI.Lawful ∧ (graphOf [(0, 1), (1, 2)]).toI.edges.Nodup ∧
    (∀ u v, (graphOf [(0, 1), (1, 2)]).toI.Adj u v → (u == 1) ≠ (v == 1)) ∧ (pairingOf [(0, 1), (3, 4)]).Symmetric ∧
    (∀ v ∈ (graphOf [(0, 1), (1, 2)]).toI.nodes, ∀ w, (pairingOf [(0, 1), (3, 4)]).mate v = .ok w →
      (graphOf [(0, 1), (1, 2)]).toI.Adj v w) ∧ ¬ (pairingOf [(0, 1), (3, 4)]).Clear (graphOf [(0, 1), (1, 2)]).toI := by
  have hl : (graphOf [(0, 1), (1, 2)]).toI.Lawful := graphOf_lawful _
  have hn : (graphOf [(0, 1), (1, 2)]).toI.nodes = [0, 1, 2] := by decide +kernel
  have hm : (pairingOf [(0, 1), (3, 4)]).Matches (graphOf [(0, 1), (3, 4)]).toI := matches_of_test (by decide +kernel)
  refine ⟨hl, graphOf_edges _, ?_, hm.symmetric, ?_, ?_⟩
  · intro u v h
    have key : ∀ u ∈ [0, 1, 2], ∀ v ∈ (graphOf [(0, 1), (1, 2)]).toI.nbr u, (u == 1) ≠ (v == 1) := by decide +kernel
    exact key u (hn ▸ hl.adj_src h) v (GraphI.mem_nbr.2 h)
  · intro v hv w e
    rw [hn] at hv
    have key : ∀ v ∈ [0, 1, 2], ∀ e ∈ (pairingOf [(0, 1), (3, 4)]).pairs, e.1 = v →
        e.2 ∈ (graphOf [(0, 1), (1, 2)]).toI.nbr v := by decide +kernel
    exact GraphI.mem_nbr.1 (key v hv (v, w) (HMap.mem_of_get (mate_eq_ok.1 e)) rfl)
  · intro h
    have hd : (graphOf [(0, 1), (1, 2)]).toI.depth = 1 := by decide +kernel
    rcases h 3 4 (by decide +kernel) with ⟨u, hu, hle⟩ | h
    · rw [hn] at hu; simp at hu; omega
    · have := h 2 (by rw [hn]; simp)
      omega

/-- **Pairing along edges is needed**: a node of the graph paired with a node outside it makes the call panic. -/
theorem C70_half_outside_panics (b : Bool) :
    maximumMatching (pf64 b) 14 (fun _ _ => id) (graphOf [(0, 1)]).toI (pairingOf [(1, 7)]) = .panic "neighbors of v" := by
  revert b; decide +kernel

end Gamma
