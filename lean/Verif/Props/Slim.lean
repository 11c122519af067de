import Verif.Props.Narrow
import Verif.Props.Unchecked
/-
Property C91: `maximum_matching` on graphs whose components have at most two neighbors in excess of two, such as two fused rings.
-/
namespace Gamma
open Pairing Blossom

section
variable (g : GraphI) (hg : g.Lawful) (he : g.edges.Nodup) (hS : ∀ v ∈ g.nodes, g.SlimAt v) (p : Pairing) (hp : p.Matches g)
  (pf : Platform)
include hg he hS hp

/-- **C91.**  On a graph in each component of which at most two nodes have three neighbors, or at most one has four, and the others have
at most two (two rings fused along an edge or a path, or sharing a node, or joined by a chain, and so on), `maximum_matching`, started
from any matching, returns for every large enough budget, with a maximum matching in which every node that was paired is paired
still. -/
theorem C91_total (hh : Headroom pf g) (ords : List Bool → Nat → HashOrder) (ho : ∀ l i, (ords l i).Valid) :
    ∃ N, ∀ fuel, N ≤ fuel → ∃ q, maximumMatching pf fuel ords g p = .ok q ∧ q.Matches g ∧
      (∀ x, p.hasNode x = true → q.hasNode x = true) ∧ ∀ ord : HashOrder, ord.Valid → IsMaximum g (q.edges ord) :=
  C90_total g hg he (fun v hv => .inr (.inr (.inr (hS v hv)))) p hp pf hh ords ho

/-- **C91, no panic**, with any budget. -/
theorem C91_no_panic (hh : Headroom pf g) (ords : List Bool → Nat → HashOrder) (ho : ∀ l i, (ords l i).Valid) (fuel : Nat)
    (m : String) : maximumMatching pf fuel ords g p ≠ .panic m :=
  C90_no_panic g hg he (fun v hv => .inr (.inr (.inr (hS v hv)))) p hp pf hh ords ho fuel m

/-- **C91, nothing is lost**, however the call ends: what was paired is paired in what is left of the pairing. -/
theorem C91_keeps (ords : List Bool → Nat → HashOrder) (ho : ∀ l i, (ords l i).Valid) (fuel : Nat) :
    (∀ x, p.hasNode x = true → (maximumMatchingLeft pf fuel ords g p).1.hasNode x = true) ∧
      p.order ≤ (maximumMatchingLeft pf fuel ords g p).1.order :=
  C90_keeps g hg he (fun v hv => .inr (.inr (.inr (hS v hv)))) p hp pf ords ho fuel

/-- **C91, effort.**  Every augmentation gains exactly one pair, and there are no more searches than nodes, plus one. -/
theorem C91_searches (ords : List Bool → Nat → HashOrder) (ho : ∀ l i, (ords l i).Valid) (fuel : Nat) (q : Pairing) (t : Tally)
    (h : maximumMatchingTally pf fuel ords g p = .ok (q, t)) (ord : HashOrder) (hord : ord.Valid) (M : List (Nat × Nat))
    (hmax : IsMaximum g M) :
    (p.edges ord).length + t.augmentations = M.length ∧ t.searches = 2 * (M.length - (p.edges ord).length) + 1 ∧
      t.depth = M.length - (p.edges ord).length + 1 ∧ t.searches ≤ g.order + 1 :=
  C90_searches g hg he (fun v hv => .inr (.inr (.inr (hS v hv)))) p hp pf ords ho fuel q t h ord hord M hmax

end

private theorem sum_ind_le (s : Nat) : ∀ l : List Nat, l.Nodup → (l.map (fun x => if x = s then 1 else 0)).sum ≤ 1
  | [], _ => by simp
  | a :: l, h => by
    obtain ⟨h1, h2⟩ := List.nodup_cons.1 h
    have ih := sum_ind_le s l h2
    simp only [List.map_cons, List.sum_cons]
    split
    · rename_i e
      subst e
      have : l.map (fun x => if x = a then 1 else 0) = l.map (fun _ => 0) :=
        List.map_congr_left (fun x hx => if_neg (fun (e : x = a) => h1 (e ▸ hx)))
      rw [this]
      simp
    · omega

/-- **C91, which components qualify**: the ones with two nodes, or twice the same node, such that every node has at most two
neighbors, and one more for each time it is one of the two. -/
theorem C91_qualify (g : GraphI) (v : Nat) :
    g.SlimAt v ↔ ∃ s t, ∀ x, g.simple.Reachable v x →
      g.others x ≤ 2 + (if x = s then 1 else 0) + (if x = t then 1 else 0) := by
  constructor
  · intro h
    by_cases h1 : ∃ s, g.simple.Reachable v s ∧ 2 < g.others s
    · obtain ⟨s, hs, hs2⟩ := h1
      by_cases h2 : ∃ t, t ≠ s ∧ g.simple.Reachable v t ∧ 2 < g.others t
      · obtain ⟨t, hts, ht, ht2⟩ := h2
        refine ⟨s, t, fun x hx => ?_⟩
        by_cases hxs : x = s
        · subst hxs
          have := h [x, t] (by simp [Ne.symm hts]) (by simp [hs, ht])
          simp at this
          simp [Ne.symm hts]
          omega
        · by_cases hxt : x = t
          · subst hxt
            have := h [x, s] (by simp [hts]) (by simp [hs, ht])
            simp at this
            simp [hts]
            omega
          · have := h [x, s, t] (by simp [hxs, hxt, Ne.symm hts]) (by simp [hs, ht, hx])
            simp at this
            omega
      · refine ⟨s, s, fun x hx => ?_⟩
        by_cases hxs : x = s
        · subst hxs
          have := h [x] (by simp) (by simp [hs])
          simp at this
          simp
          omega
        · simp [hxs]
          by_contra hc
          exact h2 ⟨x, hxs, hx, by omega⟩
    · refine ⟨v, v, fun x hx => ?_⟩
      by_contra hc
      exact h1 ⟨x, hx, by split at hc <;> omega⟩
  · rintro ⟨s, t, h⟩ l hl hr
    have a := sum_ind_le s l hl
    have b := sum_ind_le t l hl
    have c : ∀ m : List Nat, (∀ x ∈ m, g.simple.Reachable v x) → (m.map (fun x => g.others x - 2)).sum ≤
        (m.map (fun x => if x = s then 1 else 0)).sum + (m.map (fun x => if x = t then 1 else 0)).sum := by
      intro m
      induction m with
      | nil => simp
      | cons y m ih =>
        intro hm
        have i1 := ih (fun x hx => hm x (by simp [hx]))
        have i2 := h y (hm y (by simp))
        simp only [List.map_cons, List.sum_cons]
        omega
    have := c l hr
    omega

/-! #### Examples -/

/-- A ring of five and a ring of seven fused along an edge (azulene), and apart from it two rings of five that share a node, one of them
with a self-loop. -/
def fusedG : DefaultGraph := graphOf ([(0, 1), (1, 2), (2, 3), (3, 4), (4, 5), (5, 6), (6, 7), (7, 8), (8, 9), (9, 0), (0, 4)] ++
  [(20, 21), (21, 22), (22, 23), (23, 24), (24, 20), (20, 25), (25, 26), (26, 27), (27, 28), (28, 20), (22, 22)])

theorem fusedG_slim : ∀ v ∈ fusedG.toI.nodes, fusedG.toI.SlimAt v := by
  have hl : fusedG.toI.Lawful := graphOf_lawful _
  have k1 : ∀ x ∈ List.range 10, (∀ y ∈ fusedG.toI.nbr x, y ∈ List.range 10) ∧
      fusedG.toI.others x ≤ 2 + (if x = 0 then 1 else 0) + (if x = 4 then 1 else 0) := by decide +kernel
  have k2 : ∀ x ∈ List.range' 20 9, (∀ y ∈ fusedG.toI.nbr x, y ∈ List.range' 20 9) ∧
      fusedG.toI.others x ≤ 2 + (if x = 20 then 1 else 0) + (if x = 20 then 1 else 0) := by decide +kernel
  have k3 : ∀ x ∈ fusedG.toI.nodes, x ∈ List.range 10 ∨ x ∈ List.range' 20 9 := by decide +kernel
  intro v hv
  rw [C91_qualify]
  rcases k3 v hv with h | h
  · exact ⟨0, 4, fun x hx => (k1 x (reach_induct hl (Q := (· ∈ List.range 10))
      (fun a b ha hb => (k1 a ha).1 b (GraphI.mem_nbr.2 hb)) hx h)).2⟩
  · exact ⟨20, 20, fun x hx => (k2 x (reach_induct hl (Q := (· ∈ List.range' 20 9))
      (fun a b ha hb => (k2 a ha).1 b (GraphI.mem_nbr.2 hb)) hx h)).2⟩

/-- Neither component is of one of the other kinds of C90. -/
theorem fusedG_only_slim : ¬ fusedG.toI.CliqueAt 0 ∧ ¬ fusedG.toI.ApartAt 0 ∧ ¬ fusedG.toI.NarrowAt 0 ∧
    ¬ fusedG.toI.CliqueAt 20 ∧ ¬ fusedG.toI.ApartAt 20 ∧ ¬ fusedG.toI.NarrowAt 20 := by
  have hl : fusedG.toI.Lawful := graphOf_lawful _
  have adj : ∀ {x y}, y ∈ fusedG.toI.nbr x → fusedG.toI.Adj x y := fun h => GraphI.mem_nbr.1 h
  have r : ∀ {x y}, y ∈ fusedG.toI.nbr x → fusedG.toI.simple.Reachable x y := fun h => Adj.reach hl (adj h)
  have cyc : ∀ l : List Nat, l.Nodup → 3 ≤ l.length → l.length % 2 = 1 →
      (∀ z ∈ l.zip (l.tail ++ l.head?.toList), z.2 ∈ fusedG.toI.nbr z.1) → OddCycle fusedG.toI l := by
    intro l h1 h2 h3 h4
    refine ⟨h1, h3, h2, ?_, ?_⟩
    · rw [List.isChain_iff_getElem]
      intro i hi
      refine adj (h4 (l[i], l[i + 1]) ?_)
      rw [List.mem_iff_getElem]
      refine ⟨i, by simp; omega, ?_⟩
      simp [List.getElem_append, show i < l.length - 1 by omega]
    · intro x y hx hy
      refine adj (h4 (y, x) ?_)
      rw [List.mem_iff_getElem]
      refine ⟨l.length - 1, by simp [hx]; omega, ?_⟩
      rw [List.getLast?_eq_getElem?, List.getElem?_eq_some_iff] at hy
      obtain ⟨h, hy⟩ := hy
      simp [List.getElem_append, hx, hy]
  refine ⟨?_, ?_, ?_, ?_, ?_, ?_⟩
  · intro h
    have : 2 ∈ fusedG.toI.nbr 0 := GraphI.mem_nbr.2
      (h 0 2 (.refl _) ((r (show 1 ∈ fusedG.toI.nbr 0 by decide +kernel)).trans (r (show 2 ∈ fusedG.toI.nbr 1 by decide +kernel))) (by decide))
    exact absurd this (by decide +kernel)
  · intro h
    have := h [0, 1, 2, 3, 4] [0, 4, 5, 6, 7, 8, 9] 0 1 (cyc _ (by decide) (by decide) (by decide) (by decide +kernel))
      (cyc _ (by decide) (by decide) (by decide) (by decide +kernel)) (by simp) (by simp) (.refl _) (by simp)
    simp at this
  · intro h
    refine h 0 1 4 5 9 8 (.refl _) (r (show 4 ∈ fusedG.toI.nbr 0 by decide +kernel)) (r (show 9 ∈ fusedG.toI.nbr 0 by decide +kernel))
      (adj ?_) (adj ?_) (adj ?_) (by decide) <;> decide +kernel
  · intro h
    have : 22 ∈ fusedG.toI.nbr 20 := GraphI.mem_nbr.2
      (h 20 22 (.refl _) ((r (show 21 ∈ fusedG.toI.nbr 20 by decide +kernel)).trans (r (show 22 ∈ fusedG.toI.nbr 21 by decide +kernel)))
        (by decide))
    exact absurd this (by decide +kernel)
  · intro h
    have := h [20, 21, 22, 23, 24] [20, 25, 26, 27, 28] 20 21 (cyc _ (by decide) (by decide) (by decide) (by decide +kernel))
      (cyc _ (by decide) (by decide) (by decide) (by decide +kernel)) (by simp) (by simp) (.refl _) (by simp)
    simp at this
  · intro h
    refine h 20 21 24 23 25 26 (.refl _) (r (show 24 ∈ fusedG.toI.nbr 20 by decide +kernel))
      (r (show 25 ∈ fusedG.toI.nbr 20 by decide +kernel)) (adj ?_) (adj ?_) (adj ?_) (by decide) <;> decide +kernel

/-- The hypotheses hold of it, with a matching of five pairs that no single edge extends; the result has nine. -/
example (b : Bool) : fusedG.toI.Lawful ∧ fusedG.toI.edges.Nodup ∧ (∀ v ∈ fusedG.toI.nodes, fusedG.toI.SlimAt v) ∧
    fusedG.toI.order = 19 ∧ (pairingOf [(0, 4), (2, 3), (6, 7), (8, 9), (20, 21)]).Matches fusedG.toI ∧
    Headroom (pf64 b) fusedG.toI ∧
    ∃ q, maximumMatching (pf64 b) 60 (fun _ _ => _root_.id) fusedG.toI (pairingOf [(0, 4), (2, 3), (6, 7), (8, 9), (20, 21)]) = .ok q ∧
      q.order = 18 := by
  refine ⟨graphOf_lawful _, graphOf_edges _, fusedG_slim, by decide +kernel, matches_of_test (by decide +kernel),
    headroom_of (by cases b <;> decide +kernel), ?_⟩
  have h : ∀ b, (maximumMatching (pf64 b) 60 (fun _ _ => _root_.id) fusedG.toI (pairingOf [(0, 4), (2, 3), (6, 7), (8, 9), (20, 21)]) >>=
      fun q => (if q.order = 18 then .ok () else .timeout : Out Unit)) = .ok () := by decide +kernel
  have h := h b
  rw [Out.bind_eq_ok] at h
  obtain ⟨q, e, h⟩ := h
  split at h
  · exact ⟨q, e, by assumption⟩
  · cases h

/-- Six nodes: a ring of four fused with one of three, and one more node. -/
def thickG : DefaultGraph := built 6 [(2, 3), (4, 1), (0, 4), (4, 3), (0, 3), (4, 5), (2, 1)]

/-- **C91, the limit.**  One neighbor more is too many: in this graph, with no matching to start with, one node has four
neighbors, another three and the others at most two, and the call makes four augmentations to find three pairs. -/
theorem C91_limit (b : Bool) : thickG.toI.Lawful ∧ thickG.toI.edges.Nodup ∧ Headroom (pf64 b) thickG.toI ∧
    thickG.toI.nodes.map thickG.toI.others = [2, 2, 2, 3, 4, 1] ∧
    ∃ q t, maximumMatchingTally (pf64 b) 60 (fun _ _ => _root_.id) thickG.toI Pairing.new = .ok (q, t) ∧ q.order = 6 ∧
      t.augmentations = 4 := by
  have hr : thickG.Reachable := built_reachable _ _
  refine ⟨hr.lawful, hr.loopExact.nodup, headroom_of (by cases b <;> decide +kernel), ?_, ?_⟩
  · decide +kernel
  have h : ∀ b, (maximumMatchingTally (pf64 b) 60 (fun _ _ => _root_.id) thickG.toI Pairing.new >>=
      fun q => (if q.1.order = 6 ∧ q.2.augmentations = 4 then .ok () else .timeout : Out Unit)) = .ok () := by decide +kernel
  have h := h b
  rw [Out.bind_eq_ok] at h
  obtain ⟨q, e, h⟩ := h
  split at h
  · exact ⟨q.1, q.2, e, by assumption⟩
  · cases h

end Gamma
