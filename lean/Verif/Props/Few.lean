import Verif.Props.Slim
import Verif.Proofs.Few
/-
Property C92: `maximum_matching` on graphs with no more edges than nodes.
-/
namespace Gamma
open Pairing Blossom

/-- **C92, which components qualify.**  A component with no more edges (self-loops aside) than nodes has at most one odd cycle: any two
have the same nodes. -/
theorem C92_one_odd_cycle (g : GraphI) (hg : g.Lawful) (v : Nat) (hv : v ∈ g.nodes) (h : g.LeanAt v) (C D : List Nat) (x y : Nat)
    (hC : OddCycle g C) (hD : OddCycle g D) (hx : x ∈ C) (hxr : g.simple.Reachable v x) (hy : y ∈ D) (hyr : g.simple.Reachable v y) :
    ∀ z, z ∈ C ↔ z ∈ D :=
  fun _ => ⟨fun hz => h.same hg hv hC hD hy hyr hz (hxr.trans (hC.reach hg hx hz)),
    fun hz => h.same hg hv hD hC hx hxr hz (hyr.trans (hD.reach hg hy hz))⟩

section
variable (g : GraphI) (hg : g.Lawful) (he : g.edges.Nodup) (hS : ∀ v ∈ g.nodes, g.LeanAt v) (p : Pairing) (hp : p.Matches g)
  (pf : Platform)
include hg he hS hp

/-- **C92.**  On a graph none of whose components has more edges than nodes, `maximum_matching`, started from any matching, returns for
every large enough budget, with a maximum matching in which every node that was paired is paired still. -/
theorem C92_total (hh : Headroom pf g) (ords : List Bool → Nat → HashOrder) (ho : ∀ l i, (ords l i).Valid) :
    ∃ N, ∀ fuel, N ≤ fuel → ∃ q, maximumMatching pf fuel ords g p = .ok q ∧ q.Matches g ∧
      (∀ x, p.hasNode x = true → q.hasNode x = true) ∧ ∀ ord : HashOrder, ord.Valid → IsMaximum g (q.edges ord) :=
  C90_total g hg he (fun v hv => .inr (.inl ((hS v hv).apart hg hv))) p hp pf hh ords ho

/-- **C92, no panic**, with any budget. -/
theorem C92_no_panic (hh : Headroom pf g) (ords : List Bool → Nat → HashOrder) (ho : ∀ l i, (ords l i).Valid) (fuel : Nat)
    (m : String) : maximumMatching pf fuel ords g p ≠ .panic m :=
  C90_no_panic g hg he (fun v hv => .inr (.inl ((hS v hv).apart hg hv))) p hp pf hh ords ho fuel m

/-- **C92, effort.**  Every augmentation gains exactly one pair, and there are no more searches than nodes, plus one. -/
theorem C92_searches (ords : List Bool → Nat → HashOrder) (ho : ∀ l i, (ords l i).Valid) (fuel : Nat) (q : Pairing) (t : Tally)
    (h : maximumMatchingTally pf fuel ords g p = .ok (q, t)) (ord : HashOrder) (hord : ord.Valid) (M : List (Nat × Nat))
    (hmax : IsMaximum g M) :
    (p.edges ord).length + t.augmentations = M.length ∧ t.searches = 2 * (M.length - (p.edges ord).length) + 1 ∧
      t.depth = M.length - (p.edges ord).length + 1 ∧ t.searches ≤ g.order + 1 :=
  C90_searches g hg he (fun v hv => .inr (.inl ((hS v hv).apart hg hv))) p hp pf ords ho fuel q t h ord hord M hmax

end

theorem GraphI.AllConnected.lean {g : GraphI} (hg : g.Lawful) (hc : g.AllConnected) (h : g.size ≤ g.order) : ∀ v ∈ g.nodes, g.LeanAt v := by
  intro v hv
  have e : {x | g.simple.Reachable v x} = (g.nodes.toFinset : Set Nat) := by
    ext x
    simp only [Set.mem_setOf_eq, List.coe_toFinset]
    exact ⟨fun h => reach_mem hg h hv, fun h => hc v hv x h⟩
  unfold GraphI.LeanAt
  rw [e, Set.ncard_coe_finset, List.toFinset_card_of_nodup hg.nodes_nodup, ← hg.order_eq]
  exact (Set.ncard_le_ncard (fun _ h => h.1) hg.edgeSet_finite).trans (hg.ncard_edgeSet.trans h)

/-- **C92, connected graphs.**  On a connected graph with `size() <= order()`, from any matching. -/
theorem C92_connected (g : GraphI) (hg : g.Lawful) (he : g.edges.Nodup) (hc : g.AllConnected) (h : g.size ≤ g.order)
    (p : Pairing) (hp : p.Matches g) (pf : Platform) (hh : Headroom pf g) (ords : List Bool → Nat → HashOrder)
    (ho : ∀ l i, (ords l i).Valid) :
    ∃ N, ∀ fuel, N ≤ fuel → ∃ q, maximumMatching pf fuel ords g p = .ok q ∧ q.Matches g ∧
      (∀ x, p.hasNode x = true → q.hasNode x = true) ∧ ∀ ord : HashOrder, ord.Valid → IsMaximum g (q.edges ord) :=
  C92_total g hg he (hc.lean hg h) p hp pf hh ords ho

/-- Nodes listed so that each is adjacent to an earlier one are connected with each other. -/
theorem connected_of_list {g : GraphI} (hg : g.Lawful) (a : Nat) (l : List Nat) (hl : ∀ x ∈ g.nodes, x ∈ a :: l)
    (h : ∀ i, (hi : i < l.length) → ∃ y ∈ (a :: l).take (i + 1), y ∈ g.nbr l[i]) : g.AllConnected := by
  have key : ∀ i, (hi : i < (a :: l).length) → g.simple.Reachable a (a :: l)[i] := by
    intro i
    induction i using Nat.strong_induction_on with
    | _ i ih =>
      intro hi
      cases i with
      | zero => exact .refl _
      | succ i =>
        obtain ⟨y, hy, hn⟩ := h i (by simpa using hi)
        obtain ⟨j, hj, e⟩ := List.mem_iff_getElem.1 hy
        rw [List.length_take] at hj
        rw [List.getElem_take] at e
        have := ih j (by omega) (by omega)
        rw [e] at this
        exact this.trans (Adj.reach hg (GraphI.mem_nbr.1 hn)).symm
  have all : ∀ x ∈ g.nodes, g.simple.Reachable a x := by
    intro x hx
    obtain ⟨i, hi, e⟩ := List.mem_iff_getElem.1 (hl x hx)
    exact e ▸ key i hi
  exact fun x hx y hy => (all x hx).symm.trans (all y hy)

/-- Four nodes, five edges between them, and two tails. -/
def tailsG : DefaultGraph := built 8 [(0, 3), (3, 5), (6, 7), (0, 1), (1, 2), (4, 1), (4, 7), (2, 3), (2, 0)]

/-- **C92, the limit.**  One edge more than nodes is too many: this connected graph with eight nodes and nine edges makes every call
panic, with no matching to start with. -/
theorem C92_one_more_panics (b : Bool) (ords : List Bool → Nat → HashOrder) (ho : ∀ l i, (ords l i).Valid) (fuel : Nat)
    (hf : 20 ≤ fuel) :
    tailsG.toI.Lawful ∧ tailsG.toI.edges.Nodup ∧ Headroom (pf64 b) tailsG.toI ∧ tailsG.toI.AllConnected ∧
    tailsG.toI.size = tailsG.toI.order + 1 ∧ tailsG.toI.order = 8 ∧
    maximumMatching (pf64 b) fuel ords tailsG.toI Pairing.new = .panic "even path augmentation" := by
  have hr : tailsG.Reachable := built_reachable _ _
  refine ⟨hr.lawful, hr.loopExact.nodup, headroom_of (by cases b <;> decide +kernel),
    connected_of_list hr.lawful 0 [3, 5, 1, 2, 4, 7, 6] (by decide +kernel) (by decide +kernel), by decide +kernel, by decide +kernel, ?_⟩
  have h0 : ∀ b, maximumMatching (pf64 b) 20 (fun _ _ => _root_.id) tailsG.toI Pairing.new = .panic "even path augmentation" := by
    decide +kernel
  have h1 := (maximumMatching_le (pf := pf64 b) (ord := _root_.id) hf tailsG.toI Pairing.new).eq (h0 b) (by simp)
  have hm : Pairing.new.Matches tailsG.toI := matches_of_test (by decide +kernel)
  rcases maximumMatching_congr (pf := pf64 b) hr.lawful hr.loopExact.nodup fuel hm hm rfl
    (ords := fun _ _ => _root_.id) (fun _ _ => HashOrder.id_valid) ho with ⟨_, _, e, -⟩ | ⟨m, e, e'⟩ | ⟨e, -⟩
  · exact absurd (h1.symm.trans e) (by simp)
  · have := h1.symm.trans e; injection this with this; subst this; exact e'
  · exact absurd (h1.symm.trans e) (by simp)

/-! #### Examples -/

/-- A ring of seven with three tails, one of them branched: as many edges as nodes. -/
def sunG : DefaultGraph := graphOf [(0, 1), (1, 2), (2, 3), (3, 4), (4, 5), (5, 6), (6, 0), (0, 7), (7, 8), (2, 9), (9, 10), (9, 11), (5, 12)]

/-- The hypotheses hold of it, with a matching of four pairs, and the call returns six. -/
example (b : Bool) : sunG.toI.Lawful ∧ sunG.toI.edges.Nodup ∧ sunG.toI.AllConnected ∧ sunG.toI.size = 13 ∧ sunG.toI.order = 13 ∧
    (∀ v ∈ sunG.toI.nodes, sunG.toI.LeanAt v) ∧ (pairingOf [(0, 1), (2, 3), (4, 5), (7, 8)]).Matches sunG.toI ∧
    Headroom (pf64 b) sunG.toI ∧
    ∃ q, maximumMatching (pf64 b) 60 (fun _ _ => _root_.id) sunG.toI (pairingOf [(0, 1), (2, 3), (4, 5), (7, 8)]) = .ok q ∧ q.order = 12 := by
  have hc : sunG.toI.AllConnected := connected_of_list (graphOf_lawful _) 0 [1, 2, 3, 4, 5, 6, 7, 8, 9, 10, 11, 12] (by decide +kernel) (by decide +kernel)
  refine ⟨graphOf_lawful _, graphOf_edges _, hc, by decide +kernel, by decide +kernel, hc.lean (graphOf_lawful _) (by decide +kernel),
    matches_of_test (by decide +kernel), headroom_of (by cases b <;> decide +kernel), ?_⟩
  have h : ∀ b, (maximumMatching (pf64 b) 60 (fun _ _ => _root_.id) sunG.toI (pairingOf [(0, 1), (2, 3), (4, 5), (7, 8)]) >>=
      fun q => (if q.order = 12 then .ok () else .timeout : Out Unit)) = .ok () := by decide +kernel
  have h := h b
  rw [Out.bind_eq_ok] at h
  obtain ⟨q, e, h⟩ := h
  split at h
  · exact ⟨q, e, by assumption⟩
  · cases h

end Gamma
