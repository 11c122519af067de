import Verif.Props.Optimum
import Verif.Props.Loops
import Verif.Proofs.Cliques
/-
Property C93: the procedure the documentation recommends (greedy first, and `maximum_matching` only if the result is not perfect), and
the test for a perfect matching.
-/
namespace Gamma
open Pairing Blossom

/-! ### C93 -/

/-- A matching of `g` has no more ends than `g` has nodes. -/
theorem IsMatching.ends_le {g : GraphI} (hg : g.Lawful) {M : List (Nat × Nat)} (hM : IsMatching g M) : 2 * M.length ≤ g.order := by
  have := C51_every_set_bounds g hg ∅ (by simp) M hM
  rw [hg.order_eq]
  simp at this
  omega

/-- **C93, the test.**  A matching has at most as many ends as the graph has nodes; it has as many exactly if every node is paired; and
then it is a maximum matching. -/
theorem C93_perfect_test (g : GraphI) (hg : g.Lawful) (p : Pairing) (hp : p.Matches g) :
    p.order ≤ g.order ∧ (p.order = g.order ↔ ∀ v, g.hasNode v = true → p.hasNode v = true) ∧
      (p.order = g.order → ∀ ord : HashOrder, ord.Valid → IsMaximum g (p.edges ord)) := by
  have h1 := card_exposed hg hp
  rw [← hg.order_eq] at h1
  refine ⟨by omega, ?_, fun e ord ho => ⟨hp.isMatching ho, fun M hM => ?_⟩⟩
  · constructor
    · intro e v hv
      have h0 : (exposed g p).card = 0 := by omega
      rw [Finset.card_eq_zero, Finset.eq_empty_iff_forall_notMem] at h0
      rw [hasNode_iff]
      exact Option.ne_none_iff_exists'.1 (fun e => h0 v (mem_exposed.2 ⟨(hg.hasNode_iff v).1 hv, e⟩))
    · intro h
      have h0 : (exposed g p).card = 0 := by
        rw [Finset.card_eq_zero, Finset.eq_empty_iff_forall_notMem]
        intro v hv
        rw [mem_exposed] at hv
        obtain ⟨y, e⟩ := hasNode_iff.1 (h v ((hg.hasNode_iff v).2 hv.1))
        rw [hv.2] at e; cases e
      omega
  · have h2 := hM.ends_le hg
    have h3 := order_eq ho hp.symmetric
    omega

/-- **C93, nothing to do.**  `maximum_matching` leaves a matching that pairs every node as it is, however large the ids are. -/
theorem C93_perfect_unchanged (g : GraphI) (hg : g.Lawful) (p : Pairing) (hp : p.Matches g) (h : p.order = g.order) (pf : Platform)
    (ords : List Bool → Nat → HashOrder) (ho : ∀ l i, (ords l i).Valid) (fuel : Nat) (hf : g.order + 3 ≤ fuel) :
    maximumMatching pf fuel ords g p = .ok p := by
  obtain ⟨n, rfl⟩ : ∃ n, fuel = n + 2 := ⟨fuel - 2, by omega⟩
  rw [hg.order_eq] at hf
  rw [maximumMatching]
  rcases augmentingPath_search (pf := pf) hg hp hp.symmetric (fun _ _ => rfl) (ho []) (ho []) n with ⟨h1, -⟩ | ⟨f, P, v, w, hE, -⟩ | ⟨-, -, h1⟩
  · rw [h1]; rfl
  · exfalso
    have hv := hE.even_v
    obtain ⟨-, r, -, h3, h4⟩ := hE.forest.chain_root _ v le_rfl (by intro e; rw [e] at hv; simp at hv)
    have := ((C93_perfect_test g hg p hp).2.1.1 h) r ((hg.hasNode_iff r).2 h3)
    rw [hasNode_iff, h4] at this
    obtain ⟨_, e⟩ := this; cases e
  · omega

/-- **C93, what the test says of the graph.**  What `maximum_matching` returns passes the test exactly if the graph has a matching that
covers every node; so never if `order()` is odd. -/
theorem C93_result_perfect_iff (g : GraphI) (hg : g.Lawful) (he : g.edges.Nodup) (p : Pairing) (hp : p.Matches g) (pf : Platform)
    (q : Pairing) (h : MatchingReturns pf g p q) :
    (q.order = g.order ↔ ∃ M, IsMatching g M ∧ ∀ v, g.hasNode v = true → ∃ e ∈ M, v = e.1 ∨ v = e.2) ∧
      (g.order % 2 = 1 → q.order < g.order) := by
  obtain ⟨hq, -⟩ := h.spec hg he hp
  obtain ⟨ords, fuel, ho, e⟩ := h
  have hmax := C39_result_is_maximum g hg he p hp pf ords ho fuel q e _root_.id HashOrder.id_valid
  have hord := order_eq HashOrder.id_valid hq.symmetric
  obtain ⟨t1, t2, -⟩ := C93_perfect_test g hg q hq
  refine ⟨⟨fun e => ⟨q.edges _root_.id, hmax.1, fun v hv => ?_⟩, ?_⟩, fun hodd => ?_⟩
  · obtain ⟨y, hy⟩ := hasNode_iff.1 (t2.1 e v hv)
    rcases Nat.lt_or_gt_of_ne (hq.symmetric.ne hy) with hlt | hlt
    · exact ⟨(v, y), (mem_edges HashOrder.id_valid hq.symmetric).2 ⟨hlt, hy⟩, .inl rfl⟩
    · exact ⟨(y, v), (mem_edges HashOrder.id_valid hq.symmetric).2 ⟨hlt, hq.symmetric.get_get hy⟩, .inr rfl⟩
  · rintro ⟨M, hM, hc⟩
    have h1 : g.nodes.length ≤ (M.flatMap (fun e => [e.1, e.2])).length := by
      refine (hg.nodes_nodup.subperm fun v hv => ?_).length_le
      obtain ⟨e, he, h⟩ := hc v ((hg.hasNode_iff v).2 hv)
      rw [List.mem_flatMap]
      exact ⟨e, he, by simpa using h⟩
    have h2 : (M.flatMap (fun e => [e.1, e.2])).length = 2 * M.length := by
      rw [List.length_flatMap]; simp; omega
    have h3 := hmax.2 M hM
    rw [hg.order_eq] at t1 ⊢
    omega
  · omega

/-- The procedure the documentation of `greedy` and of `maximum_matching` recommends: "try a greedy matching and only fall back to a
more advanced procedure if the matching isn't perfect" (/repo/src/matching/greedy.rs:12-15, maximum_matching.rs:9-11). -/
def greedyThenMaximum (pf : Platform) (fuel : Nat) (ords : List Bool → Nat → HashOrder) (g : GraphI) : Out Pairing :=
  greedy g fuel >>= fun p => if p.order = g.order then .ok p else maximumMatching pf fuel ords g p

/-- **C93.**  Falling back to `maximum_matching` only if the greedy matching is not perfect gives the same as calling it always: the
same pairs, panics and never ending runs.  If it returns, it returns a maximum matching. -/
theorem C93_fallback_only_if_needed (g : GraphI) (hg : g.Lawful) (he : g.edges.Nodup) (pf : Platform)
    (ords : List Bool → Nat → HashOrder) (ho : ∀ l i, (ords l i).Valid) :
    (∃ N, ∀ fuel, N ≤ fuel → greedyThenMaximum pf fuel ords g = (greedy g fuel >>= fun p => maximumMatching pf fuel ords g p)) ∧
    ∀ fuel q, greedyThenMaximum pf fuel ords g = .ok q →
      q.Matches g ∧ ∀ ord : HashOrder, ord.Valid → IsMaximum g (q.edges ord) := by
  obtain ⟨h1, h2, h3⟩ := C30_returns_iff g hg
  constructor
  · by_cases hr : ∃ p, GreedyReturns g p
    · obtain ⟨p, hp⟩ := hr
      have hm := h3 p hp
      obtain ⟨N, hN⟩ := hp
      refine ⟨max N (g.order + 3), fun fuel hf => ?_⟩
      rw [greedyThenMaximum, hN fuel (by omega), Out.ok_bind, Out.ok_bind]
      split
      · rename_i e
        rw [C93_perfect_unchanged g hg p hm e pf ords ho fuel (by omega)]
      · rfl
    · obtain ⟨N, hN⟩ := h2 hr
      exact ⟨N, fun fuel hf => by rw [greedyThenMaximum, hN fuel hf]; rfl⟩
  · intro fuel q e
    rw [greedyThenMaximum, Out.bind_eq_ok] at e
    obtain ⟨p', e1, e⟩ := e
    have hm := h3 p' (greedyReturns_of e1)
    split at e
    · rename_i ho
      injection e with e; subst e
      exact ⟨hm, (C93_perfect_test g hg p' hm).2.2 ho⟩
    · exact ⟨(C38_result_is_matching g hg he p' hm pf ords ho fuel q e).1, C39_result_is_maximum g hg he p' hm pf ords ho fuel q e⟩

/-! #### Examples -/

/-- A path of four nodes, on which the greedy matching is perfect; and a triangle with a tail, on which it is not, but the fallback is. -/
example : GreedyReturns (graphOf [(0, 1), (1, 2), (2, 3)]).toI (pairingOf [(0, 1), (2, 3)]) ∧
    (pairingOf [(0, 1), (2, 3)]).order = (graphOf [(0, 1), (1, 2), (2, 3)]).toI.order ∧
    (pairingOf [(0, 1), (2, 3)]).Matches (graphOf [(0, 1), (1, 2), (2, 3)]).toI ∧
    tri.toI.Lawful ∧ tri.toI.edges.Nodup ∧ GreedyReturns tri.toI (pairingOf [(0, 1)]) ∧ (pairingOf [(0, 1)]).order ≠ tri.toI.order ∧
    greedyThenMaximum (pf64 true) 14 (fun _ _ => _root_.id) tri.toI = .ok (pairingOf [(0, 1), (2, 3)]) ∧
    MatchingReturns (pf64 true) star3.toI .new (pairingOf [(0, 1)]) ∧ (pairingOf [(0, 1)]).order < star3.toI.order :=
  ⟨greedyReturns_of (N := 12) (by decide +kernel), by decide +kernel, matches_of_test (by decide +kernel), graphOf_lawful _, graphOf_edges _,
    greedyReturns_of (N := 12) (by decide +kernel), by decide +kernel, by decide +kernel, star3_returns, by decide +kernel⟩

end Gamma
