import Verif.Proofs.Looks
import Verif.Props.Halt
/-
Property C85: how often the search for an augmenting path asks for neighbors.
-/
namespace Gamma
open Pairing Blossom

/-! ### C85 -/

/-- **C85, counting.**  Counting changes nothing: the call that counts returns `q` exactly if the call does, and fails alike; and
it makes as many searches as the tally of C81 says. -/
theorem C85_same_outcome (pf : Platform) (fuel : Nat) (ords : List Bool → Nat → HashOrder) (g : GraphI) (p : Pairing) :
    (∀ q, maximumMatching pf fuel ords g p = .ok q ↔ ∃ looks, maximumMatchingLooks pf fuel ords g p = .ok (q, looks)) ∧
    (∀ m, maximumMatching pf fuel ords g p = .panic m ↔ maximumMatchingLooks pf fuel ords g p = .panic m) ∧
    (maximumMatching pf fuel ords g p = .timeout ↔ maximumMatchingLooks pf fuel ords g p = .timeout) := by
  rw [maximumMatchingLooks_eq]
  rcases maximumMatchingLooks pf fuel ords g p with ⟨q, t⟩ | e | m | _ <;> simp

/-- The same of a single search. -/
theorem C85_same_search (pf : Platform) (fuel : Nat) (ords : Nat → HashOrder) (g : GraphI) (p : Pairing) :
    (∀ r, augmentingPath pf ords fuel g p = .ok r ↔ ∃ looks, augmentingPathLooks pf ords fuel g p = .ok (r, looks)) ∧
    (∀ m, augmentingPath pf ords fuel g p = .panic m ↔ augmentingPathLooks pf ords fuel g p = .panic m) ∧
    (augmentingPath pf ords fuel g p = .timeout ↔ augmentingPathLooks pf ords fuel g p = .timeout) := by
  rw [augmentingPathLooks_eq]
  rcases augmentingPathLooks pf ords fuel g p with ⟨q, t⟩ | e | m | _ <;> simp

/-- **C85, one search.**  A search for an augmenting path asks for neighbors at most once for every node (of two mates only one)
and once for every edge outside the matching, and so does each of the searches nested in it (in contracted graphs), of which there are
at most half as many as nodes (plus one for each self-loop). -/
theorem C85_looks_of_search (g : GraphI) (hg : g.Lawful) (he : g.edges.Nodup) (p : Pairing) (hp : p.Matches g) (pf : Platform)
    (ords : Nat → HashOrder) (ho : ∀ i, (ords i).Valid) (fuel : Nat) (r : Option (List Nat)) (looks : List Nat)
    (h : augmentingPathLooks pf ords fuel g p = .ok (r, looks)) (ord : HashOrder) (hord : ord.Valid) :
    (∀ k ∈ looks, k ≤ (g.order - (p.edges ord).length) + (g.size - (p.edges ord).length)) ∧ looks.length ≤ g.order / 2 + g.loops + 1 := by
  obtain ⟨h1, h2⟩ := augmentingPathLooks_spec ho fuel hg he hp h
  have h3 := Pairing.rest_add hg hp hord
  refine ⟨fun k hk => ?_, ?_⟩
  · have := h2 k hk
    have := order_eq hord hp.symmetric
    rw [hg.order_eq]; omega
  · rw [hg.order_eq]; unfold GraphI.depth at h1; exact h1

/-- **C85, one search, two colours.**  On a bipartite graph there is only the search itself. -/
theorem C85_looks_bipartite (g : GraphI) (hg : g.Lawful) (he : g.edges.Nodup) (p : Pairing) (hp : p.Matches g)
    (col : Nat → Bool) (hcol : ∀ u v, g.Adj u v → col u ≠ col v) (pf : Platform)
    (ords : Nat → HashOrder) (ho : ∀ i, (ords i).Valid) (fuel : Nat) (r : Option (List Nat)) (looks : List Nat)
    (h : augmentingPathLooks pf ords fuel g p = .ok (r, looks)) (ord : HashOrder) (hord : ord.Valid) :
    ∃ k, looks = [k] ∧ k ≤ (g.order - (p.edges ord).length) + (g.size - (p.edges ord).length) := by
  have h1 := augmentingPathLooks_bip ho fuel hg hp hcol h
  obtain ⟨k, rfl⟩ := List.length_eq_one_iff.1 h1
  exact ⟨k, rfl, (C85_looks_of_search g hg he p hp pf ords ho fuel r _ h ord hord).1 k (by simp)⟩

theorem sum_le_mul {l : List Nat} {b : Nat} (h : ∀ k ∈ l, k ≤ b) : l.sum ≤ l.length * b := by
  simpa using l.sum_le_card_nsmul b h

/-- **C85, the whole call.**  A call of `maximum_matching` that returns makes the searches the tally counts, and each asks for
neighbors at most `(n / 2 + 1) (n + m)` times, nested searches included (`n` nodes, `m` edges, no self-loops). -/
theorem C85_looks_of_call (g : GraphI) (hg : g.Lawful) (he : g.edges.Nodup) (p : Pairing) (hp : p.Matches g) (pf : Platform)
    (ords : List Bool → Nat → HashOrder) (ho : ∀ l i, (ords l i).Valid) (fuel : Nat) (q : Pairing) (looks : List (List Nat))
    (h : maximumMatchingLooks pf fuel ords g p = .ok (q, looks)) :
    (∃ t, maximumMatchingTally pf fuel ords g p = .ok (q, t) ∧ looks.length = t.searches) ∧
    ∀ ks ∈ looks, ks.sum ≤ (g.order / 2 + g.loops + 1) * (g.order + g.size) := by
  obtain ⟨-, ⟨t, h1, h2⟩, h3⟩ := maximumMatchingLooks_spec hg he fuel hp ho h
  refine ⟨⟨t, h1, h2.symm⟩, fun ks hks => ?_⟩
  obtain ⟨p', ords', m, r, a1, a2, a3⟩ := h3 ks hks
  obtain ⟨b1, b2⟩ := C85_looks_of_search g hg he p' a1 pf ords' a2 m r ks a3 _root_.id HashOrder.id_valid
  exact (sum_le_mul (b := g.order + g.size) (fun k hk => by have := b1 k hk; omega)).trans (Nat.mul_le_mul_right _ b2)

/-- **C85, polynomial time.**  Where no two odd cycles share a node, a call of `maximum_matching` asks for neighbors at most
`(n + 1) (n / 2 + 1) (n + m)` times in all, self-loops aside. -/
theorem C85_polynomial_odd_cycles_apart (g : GraphI) (hg : g.Lawful) (he : g.edges.Nodup) (hA : g.OddCyclesApart)
    (p : Pairing) (hp : p.Matches g) (pf : Platform)
    (ords : List Bool → Nat → HashOrder) (ho : ∀ l i, (ords l i).Valid) (fuel : Nat) (q : Pairing) (looks : List (List Nat))
    (h : maximumMatchingLooks pf fuel ords g p = .ok (q, looks)) :
    looks.flatten.sum ≤ (g.order + 1) * ((g.order / 2 + g.loops + 1) * (g.order + g.size)) := by
  obtain ⟨⟨t, h1, h2⟩, h3⟩ := C85_looks_of_call g hg he p hp pf ords ho fuel q looks h
  have h4 := (C81_at_most g hg p pf ords ho he hA hp fuel q t h1).1
  rw [List.sum_flatten]
  refine (sum_le_mul (l := looks.map List.sum) (b := (g.order / 2 + g.loops + 1) * (g.order + g.size)) ?_).trans ?_
  · intro k hk
    obtain ⟨ks, hks, rfl⟩ := List.mem_map.1 hk
    exact h3 ks hks
  · rw [List.length_map, h2]
    refine Nat.mul_le_mul_right _ ?_
    rw [hg.order_eq]; exact h4

/-- **C85, polynomial time, two colours.**  On a bipartite graph, at most `(n + 1) (n + m)` times. -/
theorem C85_polynomial_bipartite (g : GraphI) (hg : g.Lawful) (he : g.edges.Nodup) (col : Nat → Bool)
    (hcol : ∀ u v, g.Adj u v → col u ≠ col v)
    (p : Pairing) (hp : p.Matches g) (pf : Platform)
    (ords : List Bool → Nat → HashOrder) (ho : ∀ l i, (ords l i).Valid) (fuel : Nat) (q : Pairing) (looks : List (List Nat))
    (h : maximumMatchingLooks pf fuel ords g p = .ok (q, looks)) :
    looks.flatten.sum ≤ (g.order + 1) * (g.order + g.size) := by
  obtain ⟨-, ⟨t, h1, h2⟩, h3⟩ := maximumMatchingLooks_spec hg he fuel hp ho h
  have h4 := (C81_at_most g hg p pf ords ho he (C49_bipartite_apart g col hcol) hp fuel q t h1).1
  rw [List.sum_flatten]
  refine (sum_le_mul (l := looks.map List.sum) (b := g.order + g.size) ?_).trans ?_
  · intro k hk
    obtain ⟨ks, hks, rfl⟩ := List.mem_map.1 hk
    obtain ⟨p', ords', m, r, a1, a2, a3⟩ := h3 ks hks
    obtain ⟨k, rfl, hk⟩ := C85_looks_bipartite g hg he p' a1 col hcol pf ords' a2 m r ks a3 _root_.id HashOrder.id_valid
    simp; omega
  · rw [List.length_map, ← h2]
    refine Nat.mul_le_mul_right _ ?_
    rw [hg.order_eq]; exact h4

/-! #### Examples -/

/-- Two nodes, each joined with three others. -/
def twoThree : DefaultGraph := graphOf [(0, 1), (2, 1), (3, 1), (0, 4), (2, 4), (3, 4)]

/-- The bound on one search cannot be improved: a search in `twoThree` needs it. -/
theorem C85_looks_sharp (b : Bool) :
    twoThree.toI.Lawful ∧ twoThree.toI.edges.Nodup ∧ (pairingOf [(0, 1), (2, 4)]).Matches twoThree.toI ∧
    twoThree.toI.order = 5 ∧ twoThree.toI.size = 6 ∧ ((pairingOf [(0, 1), (2, 4)]).edges _root_.id).length = 2 ∧
    augmentingPathLooks (pf64 b) (fun _ => _root_.id) 20 twoThree.toI (pairingOf [(0, 1), (2, 4)]) = .ok (none, [(5 - 2) + (6 - 2)]) :=
  ⟨graphOf_lawful _, graphOf_edges _, matches_of_test (by decide +kernel), rfl, rfl, by decide +kernel, by revert b; decide +kernel⟩

/-- The colours of `twoThree`. -/
example : ∀ u v, twoThree.toI.Adj u v → (u == 1 || u == 4) ≠ (v == 1 || v == 4) := by
  intro u v h
  have hg : twoThree.toI.Lawful := graphOf_lawful _
  have hu := hg.adj_src h
  have hv := hg.adj_mem _ _ h
  have hn : twoThree.toI.nodes = [0, 1, 2, 3, 4] := by decide +kernel
  rw [hn] at hu hv
  rw [← GraphI.mem_nbr] at h
  revert h
  fin_cases hu <;> fin_cases hv <;> decide +kernel

/-- A search that contracts three times, and four counts. -/
example (b : Bool) : (completeG 7).toI.Lawful ∧ (completeG 7).toI.edges.Nodup ∧
    (pairingOf [(1, 2), (3, 4), (5, 6)]).Matches (completeG 7).toI ∧
    augmentingPathLooks (pf64 b) (fun _ => _root_.id) 20 (completeG 7).toI (pairingOf [(1, 2), (3, 4), (5, 6)]) =
      .ok (none, [2, 2, 2, 1]) :=
  ⟨graphOf_lawful _, graphOf_edges _, matches_of_test (by decide +kernel), by revert b; decide +kernel⟩

/-- A call on the triangle with a tail: five searches, one of them with a nested one. -/
example : tri.toI.Lawful ∧ tri.toI.edges.Nodup ∧ tri.toI.OddCyclesApart ∧ Pairing.new.Matches tri.toI ∧
    ∀ b, ∃ q, maximumMatchingLooks (pf64 b) 14 (fun _ _ => _root_.id) tri.toI .new = .ok (q, [[1], [2, 1], [0], [0], [0]]) :=
  ⟨tri_lawful, graphOf_edges _, tri_apart.1, matches_of_test (by decide +kernel), fun b => ⟨pairingOf [(0, 1), (2, 3)], by
    revert b; decide +kernel⟩⟩

end Gamma
