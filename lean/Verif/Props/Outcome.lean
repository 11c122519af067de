import Verif.Props.Local
import Verif.Props.Halt
/-
Property C84, continued: the three ways a call of `maximum_matching` can go, each told by the rounds of search and augmentation.
-/
namespace Gamma
open Pairing Blossom DefaultGraph

section
variable (g : GraphI) (hg : g.Lawful) (he : g.edges.Nodup) (p : Pairing) (hp : p.Matches g) (pf : Platform) (hh : Headroom pf g)
  (ords : List Bool → Nat → HashOrder) (ho : ∀ l i, (ords l i).Valid)
include hg he hp hh ho

omit hh in
theorem rounds_lt {j : Nat} {r : Pairing} (h1 : Leads pf g j p r) {fuel : Nat} (h2 : maximumMatching pf fuel ords g p ≠ .timeout) :
    j < g.nodes.length.factorial := by
  by_contra hge
  obtain ⟨s, hs, -⟩ := h1.split (i := g.nodes.length.factorial) (by omega)
  obtain ⟨j, k, s, s', hk, -, h1, h3, h4⟩ := circle_of_leads hg he hp hs
  exact h2 (diverges_of_circle hg he hp hk h1 h3 h4 ho fuel)

/-- **C84, panics.**  A call of `maximum_matching` panics exactly if some rounds of search and augmentation (fewer than the nodes have
permutations) lead to a matching from which the search finds a path with an odd number of nodes. -/
theorem C84_panics_iff_odd_path :
    (∃ fuel m, maximumMatching pf fuel ords g p = .panic m) ↔
      ∃ j r path, j < g.nodes.length.factorial ∧ Leads pf g j p r ∧ Finds pf g r path ∧ path.length % 2 = 1 := by
  constructor
  · rintro ⟨fuel, m, e⟩
    obtain ⟨j, r, path, h1, h2, h3⟩ := stuck_of_panic hg he hh fuel hp ho e
    exact ⟨j, r, path, rounds_lt g hg he p hp pf ords ho h1 (fuel := fuel) (by rw [e]; simp), h1, h2, h3⟩
  · rintro ⟨j, r, path, -, h1, h2, h3⟩
    obtain ⟨N, hN⟩ := panic_of_stuck hg he hh hp ho ⟨j, r, path, h1, h2, h3⟩
    exact ⟨N, hN N le_rfl⟩

/-- **C84, returns.**  A call returns exactly if some rounds of search and augmentation (fewer than the nodes have permutations) lead to
a maximum matching; that one is what it returns. -/
theorem C84_returns_iff_maximum (ord : HashOrder) (hord : ord.Valid) (q : Pairing) :
    (∃ fuel, maximumMatching pf fuel ords g p = .ok q) ↔
      ∃ j, j < g.nodes.length.factorial ∧ Leads pf g j p q ∧ IsMaximum g (q.edges ord) := by
  constructor
  · rintro ⟨fuel, e⟩
    obtain ⟨j, h1, -⟩ := leads_of_ok hg he hh fuel hp ho e
    exact ⟨j, rounds_lt g hg he p hp pf ords ho h1 (fuel := fuel) (by rw [e]; simp), h1,
      C39_result_is_maximum g hg he p hp pf ords ho fuel q e ord hord⟩
  · rintro ⟨j, -, h1, h2⟩
    have hq := h1.matches_ hg he hp
    obtain ⟨N, hN⟩ := C40_maximum_unchanged g hg he q hq ord hord h2 pf hh ords ho
    obtain ⟨i, h3, h4⟩ := leads_of_ok hg he hh N hq ho (hN N le_rfl)
    exact ⟨_, ok_of_leads hg he hh hp ho (h1.append h3) h4 le_rfl⟩

/-- **C84, one of three.**  With a budget that depends on the graph only, a call either returns a maximum matching, the same one for
every larger budget; or refuses an odd path, for every larger budget; or never ends. -/
theorem C84_one_of_three :
    let B := g.nodes.length + (g.nodes.length / 2 + g.loops) + g.nodes.length.factorial + 2
    (∃ q, (∀ fuel, B ≤ fuel → maximumMatching pf fuel ords g p = .ok q) ∧ ∀ ord : HashOrder, ord.Valid → IsMaximum g (q.edges ord)) ∨
    (∀ fuel, B ≤ fuel → maximumMatching pf fuel ords g p = .panic "even path augmentation") ∨
    (∀ fuel, maximumMatching pf fuel ords g p = .timeout) := by
  intro B
  have hB : B = g.nodes.length + g.depth + g.nodes.length.factorial + 2 := by unfold B GraphI.depth; rfl
  by_cases hT : ∀ fuel, maximumMatching pf fuel ords g p = .timeout
  · exact .inr (.inr hT)
  have ends : ∀ fuel, B ≤ fuel → maximumMatching pf fuel ords g p ≠ .timeout := by
    intro fuel hf h
    obtain ⟨r, hr⟩ := leads_of_timeout (pf := pf) hg he g.nodes.length.factorial hp ho (by omega) h
    obtain ⟨j, k, s, s', hk, -, h1, h2, h3⟩ := circle_of_leads hg he hp hr
    exact hT (diverges_of_circle hg he hp hk h1 h2 h3 ho)
  by_cases hS : Stuck pf g p
  · refine .inr (.inl fun fuel hf => ?_)
    rcases maximumMatching_spec (pf := pf) hg he fuel hp ho with ⟨q, e, -⟩ | e | ⟨m, -, h, -⟩ | e
    · obtain ⟨i, l, hd⟩ := leads_of_ok hg he hh fuel hp ho e
      exact (l.not_stuck hg he hp hd hS).elim
    · exact e
    · exact absurd hh h
    · exact absurd e (ends fuel hf)
  · left
    rcases maximumMatching_spec (pf := pf) hg he B hp ho with ⟨q, e, -⟩ | e | ⟨m, -, h, -⟩ | e
    · obtain ⟨i, l, hd⟩ := leads_of_ok hg he hh B hp ho e
      have hi := rounds_lt g hg he p hp pf ords ho l (fuel := B) (by rw [e]; simp)
      exact ⟨q, fun fuel hf => ok_of_leads hg he hh hp ho l hd (by omega), C39_result_is_maximum g hg he p hp pf ords ho B q e⟩
    · exact absurd (stuck_of_panic hg he hh B hp ho e) hS
    · exact absurd hh h
    · exact absurd e (ends B le_rfl)

end

/-! #### Examples -/

/-- Each of the three occurs, on graphs that meet the hypotheses. -/
example (b : Bool) :
    (panicG.toI.Lawful ∧ panicG.toI.edges.Nodup ∧ Pairing.new.Matches panicG.toI ∧ Headroom (pf64 b) panicG.toI ∧
      maximumMatching (pf64 b) 20 (fun _ _ => _root_.id) panicG.toI .new = .panic "even path augmentation") ∧
    (spiroLoopG.toI.Lawful ∧ spiroLoopG.toI.edges.Nodup ∧ Pairing.new.Matches spiroLoopG.toI ∧ Headroom (pf64 b) spiroLoopG.toI ∧
      ∀ fuel, maximumMatching (pf64 b) fuel (fun _ _ => _root_.id) spiroLoopG.toI .new = .timeout) ∧
    (spiroG.toI.Lawful ∧ spiroG.toI.edges.Nodup ∧ (pairingOf [(3, 1), (4, 5)]).Matches spiroG.toI ∧ Headroom (pf64 b) spiroG.toI ∧
      ∃ q, maximumMatching (pf64 b) 30 (fun _ _ => _root_.id) spiroG.toI (pairingOf [(3, 1), (4, 5)]) = .ok q) := by
  refine ⟨⟨graphOf_lawful _, graphOf_edges _, matches_of_test (by decide +kernel), headroom_of (by cases b <;> decide +kernel),
      C41_panics b _ (fun _ _ => HashOrder.id_valid) 20 le_rfl⟩,
    ⟨(built_reachable _ _).lawful, (built_reachable _ _).loopExact.nodup, matches_of_test (by decide +kernel),
      headroom_of (by cases b <;> decide +kernel),
      fun fuel => (C42_diverges_where_odd_cycles_touch b _ (fun _ _ => HashOrder.id_valid) fuel).2⟩,
    ⟨(built_reachable _ _).lawful, (built_reachable _ _).loopExact.nodup, matches_of_test (by decide +kernel),
      headroom_of (by cases b <;> decide +kernel), ?_⟩⟩
  obtain ⟨-, -, -, q, e, -⟩ := C44_uncovers_where_odd_cycles_touch b (fun _ _ => _root_.id) (fun _ _ => HashOrder.id_valid) 30 le_rfl
  exact ⟨q, e⟩

end Gamma
