import Verif.Proofs.Cost
import Verif.Props.Left
/-
Property C81: how many searches `maximum_matching` makes, and how deep its recursions go.
-/
namespace Gamma
open Pairing Blossom

/-! ### C81 -/

/-- **C81, the tally.**  Keeping a tally changes nothing: the run with a tally returns `q` exactly if the run does, and fails
alike. -/
theorem C81_same_outcome (pf : Platform) (fuel : Nat) (ords : List Bool → Nat → HashOrder) (g : GraphI) (p : Pairing) :
    (∀ q, maximumMatching pf fuel ords g p = .ok q ↔ ∃ t, maximumMatchingTally pf fuel ords g p = .ok (q, t)) ∧
    (∀ m, maximumMatching pf fuel ords g p = .panic m ↔ maximumMatchingTally pf fuel ords g p = .panic m) ∧
    (maximumMatching pf fuel ords g p = .timeout ↔ maximumMatchingTally pf fuel ords g p = .timeout) := by
  rw [maximumMatchingTally_eq]
  rcases maximumMatchingTally pf fuel ords g p with ⟨q, t⟩ | e | m | _ <;> simp

section
variable (g : GraphI) (hg : g.Lawful) (he : g.edges.Nodup) (p : Pairing) (pf : Platform)
  (ords : List Bool → Nat → HashOrder) (ho : ∀ l i, (ords l i).Valid)
include hg he ho

/-- **C81, searches.**  A call of `maximum_matching` that returns after `k` augmentations has searched for a path `2 k + 1` times,
and `k + 1` calls of it were open at the same time: all augmentations are made by nested calls, one in each, and every call
searches once more before it returns.  (`p` may be any pairing of nodes of `g`, so every matching.) -/
theorem C81_searches (hs : p.Symmetric) (hi : ∀ v w, p.mate v = .ok w → v ∈ g.nodes) (fuel : Nat) (q : Pairing) (t : Tally)
    (h : maximumMatchingTally pf fuel ords g p = .ok (q, t)) :
    t.searches = 2 * t.augmentations + 1 ∧ t.depth = t.augmentations + 1 :=
  maximumMatchingTally_spec hg he fuel hs (inside_iff.2 hi) ho h

/-- **C81, exactly.**  Where no two odd cycles share a node, it takes one augmentation for each pair that a maximum matching has
more than the matching given. -/
theorem C81_exact_odd_cycles_apart (hA : g.OddCyclesApart) (hp : p.Matches g) (fuel : Nat) (q : Pairing) (t : Tally)
    (h : maximumMatchingTally pf fuel ords g p = .ok (q, t)) (ord : HashOrder) (hord : ord.Valid) (M : List (Nat × Nat))
    (hM : IsMaximum g M) :
    (p.edges ord).length + t.augmentations = M.length ∧ t.searches = 2 * (M.length - (p.edges ord).length) + 1 ∧
      t.depth = M.length - (p.edges ord).length + 1 := by
  obtain ⟨h1, h2⟩ := maximumMatchingTally_spec hg he fuel hp.symmetric (fun v w e => hg.adj_src (hp.adj' e)) ho h
  obtain ⟨h3, h4⟩ := maximumMatchingTally_order hg he (fun p path hp ⟨ords, n, ho, e⟩ => (augmentingPath_good ho n hg he hp hA e).fine) fuel hp ho h
  have h5 := (C81_same_outcome pf fuel ords g p).1 q |>.2 ⟨t, h⟩
  have h6 := C39_result_is_maximum g hg he p hp pf ords ho fuel q h5 ord hord
  have h7 := h6.2 M hM.1
  have h8 := hM.2 _ h6.1
  have h9 := order_eq hord hp.symmetric
  have h10 := order_eq hord h3.symmetric
  omega

omit he in
/-- **C81, at most.**  So there are no more searches than nodes, plus one. -/
theorem C81_at_most (he : g.edges.Nodup) (hA : g.OddCyclesApart) (hp : p.Matches g) (fuel : Nat) (q : Pairing) (t : Tally)
    (h : maximumMatchingTally pf fuel ords g p = .ok (q, t)) :
    t.searches ≤ g.nodes.length + 1 ∧ 2 * t.depth ≤ g.nodes.length + 2 := by
  obtain ⟨h1, h2⟩ := maximumMatchingTally_spec hg he fuel hp.symmetric (fun v w e => hg.adj_src (hp.adj' e)) ho h
  obtain ⟨h3, h4⟩ := maximumMatchingTally_order hg he (fun p path hp ⟨ords, n, ho, e⟩ => (augmentingPath_good ho n hg he hp hA e).fine) fuel hp ho h
  have h5 : q.order ≤ g.nodes.length := by
    have : (q.pairs.map Prod.fst).Subperm g.nodes := by
      refine List.Nodup.subperm (by simpa using h3.symmetric.keys_nodup) ?_
      intro x hx
      obtain ⟨y, hy⟩ := hasNode_iff.1 (keys_mem.1 hx)
      exact hg.adj_src (h3.adj' hy)
    simpa [Pairing.order] using this.length_le
  omega

end

/-- **C81, nested searches.**  The search for an augmenting path calls itself on contracted graphs; a stack with room for one
call more than half the number of nodes (and one for each self-loop) is enough, whatever the graph and the matching. -/
theorem C81_nested_searches (g : GraphI) (hg : g.Lawful) (he : g.edges.Nodup) (p : Pairing) (hp : p.Matches g) (pf : Platform)
    (ords : Nat → HashOrder) (ho : ∀ i, (ords i).Valid) (fuel limit : Nat) (hl : g.nodes.length / 2 + g.loops + 1 ≤ limit) :
    augmentingPathNested pf ords limit fuel g p = augmentingPath pf ords fuel g p :=
  augmentingPathNested_eq ho limit fuel hg he hp (by unfold GraphI.depth; omega)

/-- **C81, nested searches, two colours.**  On a bipartite graph it does not call itself at all. -/
theorem C81_nested_searches_bipartite (g : GraphI) (hg : g.Lawful) (p : Pairing) (hp : p.Matches g)
    (col : Nat → Bool) (hcol : ∀ u v, g.Adj u v → col u ≠ col v) (pf : Platform)
    (ords : Nat → HashOrder) (ho : ∀ i, (ords i).Valid) (fuel : Nat) :
    augmentingPathNested pf ords 1 fuel g p = augmentingPath pf ords fuel g p :=
  augmentingPathNested_bip ho 0 fuel hg hp hcol

/-! #### Examples -/

/-- All nodes below `n`, each joined with each. -/
def completeG (n : Nat) : DefaultGraph := graphOf ((List.range n).flatMap fun i => (List.range i).map fun j => (j, i))

/-- The bound on nested searches cannot be improved: the complete graphs with 3, 5 and 7 nodes need it. -/
theorem C81_nested_searches_sharp (b : Bool) :
    (completeG 3).toI.depth = 1 ∧ (completeG 5).toI.depth = 2 ∧ (completeG 7).toI.depth = 3 ∧
    augmentingPathNested (pf64 b) (fun _ => _root_.id) 1 20 (completeG 3).toI (pairingOf [(1, 2)]) = .panic "stack overflow" ∧
    augmentingPathNested (pf64 b) (fun _ => _root_.id) 2 20 (completeG 5).toI (pairingOf [(1, 2), (3, 4)]) =
      .panic "stack overflow" ∧
    augmentingPathNested (pf64 b) (fun _ => _root_.id) 3 20 (completeG 7).toI (pairingOf [(1, 2), (3, 4), (5, 6)]) =
      .panic "stack overflow" := by
  revert b; decide +kernel

/-- The hypotheses hold of the triangle with a tail, and two augmentations take five searches. -/
example : tri.toI.Lawful ∧ tri.toI.edges.Nodup ∧ tri.toI.OddCyclesApart ∧ Pairing.new.Matches tri.toI ∧
    ∀ b, ∃ q, maximumMatchingTally (pf64 b) 14 (fun _ _ => _root_.id) tri.toI .new = .ok (q, ⟨5, 2, 3⟩) :=
  ⟨tri_lawful, graphOf_edges _, tri_apart.1, matches_of_test (by decide +kernel), fun b => ⟨pairingOf [(0, 1), (2, 3)], by
    revert b; decide +kernel⟩⟩

/-- And of a matching of the complete graph with five nodes. -/
example : (completeG 5).toI.Lawful ∧ (completeG 5).toI.edges.Nodup ∧ (pairingOf [(1, 2), (3, 4)]).Matches (completeG 5).toI :=
  ⟨graphOf_lawful _, graphOf_edges _, matches_of_test (by decide +kernel)⟩

end Gamma
