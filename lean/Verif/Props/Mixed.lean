import Verif.Props.Local
import Verif.Props.Narrow
/-
Properties C88 and C83 put together: parts of the kinds of C90 beside parts whose odd cycles touch.
-/
namespace Gamma
open Pairing Blossom DefaultGraph

section
variable (c : Nat → Nat) (g : GraphI) (hs : Nat → GraphI) (hg : g.Lawful) (hh : ∀ v ∈ g.nodes, (hs (c v)).Lawful) (og : g.InEdgeOrder)
  (oh : ∀ v ∈ g.nodes, (hs (c v)).InEdgeOrder) (he : g.edges.Nodup) (parts : ∀ v ∈ g.nodes, GraphI.PartOn (fun x => c x == c v) g (hs (c v)))
  (p : Pairing) (ps : Nat → Pairing) (hp : p.Matches g) (hps : ∀ v ∈ g.nodes, (ps (c v)).Matches (hs (c v)))
  (hpp : ∀ v ∈ g.nodes, Pairing.PartOn (fun x => c x == c v) p (ps (c v))) (pf : Platform) (room : Headroom pf g)
  (kinds : ∀ v ∈ g.nodes, (hs (c v)).EasyParts ∨ (hs (c v)).OddCyclesTouch)
include hg hh og oh he parts hp hps hpp room kinds

/-- **C88, parts of different kinds.**  Let no edge join two labels.  If every part is of the kinds of C90 or has no two odd cycles that
share two nodes (C83), `maximum_matching` does not panic, with any budget. -/
theorem C88_mixed_no_panic (ords : List Bool → Nat → HashOrder) (ho : ∀ l i, (ords l i).Valid) (fuel : Nat) (m : String) :
    maximumMatching pf fuel ords g p ≠ .panic m := by
  have l := localAll_of c g hs hg hh og oh he parts p ps hp hps hpp pf room
  intro e
  obtain ⟨v, hv, N, hN⟩ := C88_panics_in_a_part c g hs hg hh og oh he parts p ps hp hps hpp pf room ords ho fuel m e
  obtain ⟨m', e'⟩ := hN N le_rfl
  rcases kinds v hv with h | h
  · exact C90_no_panic (hs (c v)) (hh v hv) (l v hv).nodup' h (ps (c v)) (hps v hv) pf (l v hv).room' ords ho N m' e'
  · exact C41_no_panic_odd_cycles_touch_partial (hs (c v)) (hh v hv) (l v hv).nodup' h pf (l v hv).room' (ps (c v)) (hps v hv) ords ho N m' e'

/-- **C88, parts of different kinds: what never ends.**  There `maximum_matching` runs forever exactly if it runs forever on a part that
is not of the kinds of C90; and otherwise it returns, with a maximum matching. -/
theorem C88_mixed_ends (ords : List Bool → Nat → HashOrder) (ho : ∀ l i, (ords l i).Valid) :
    ((∀ fuel, maximumMatching pf fuel ords g p = .timeout) ↔
      ∃ v ∈ g.nodes, ¬ (hs (c v)).EasyParts ∧ ∀ fuel, maximumMatching pf fuel ords (hs (c v)) (ps (c v)) = .timeout) ∧
    ((∀ fuel, maximumMatching pf fuel ords g p = .timeout) ∨
      ∃ fuel q, maximumMatching pf fuel ords g p = .ok q ∧ ∀ ord : HashOrder, ord.Valid → IsMaximum g (q.edges ord)) := by
  have l := localAll_of c g hs hg hh og oh he parts p ps hp hps hpp pf room
  have hno : ∀ v ∈ g.nodes, ∀ fuel m, maximumMatching pf fuel ords (hs (c v)) (ps (c v)) ≠ .panic m := by
    intro v hv N m'
    rcases kinds v hv with h | h
    · exact C90_no_panic (hs (c v)) (hh v hv) (l v hv).nodup' h (ps (c v)) (hps v hv) pf (l v hv).room' ords ho N m'
    · exact C41_no_panic_odd_cycles_touch_partial (hs (c v)) (hh v hv) (l v hv).nodup' h pf (l v hv).room' (ps (c v)) (hps v hv) ords ho N m'
  constructor
  · rw [C88_never_ends_iff c g hs hg hh og oh he parts p ps hp hps hpp pf room ords ho hno]
    constructor
    · rintro ⟨v, hv, h⟩
      refine ⟨v, hv, fun hE => ?_, h⟩
      obtain ⟨N, hN⟩ := C90_total (hs (c v)) (hh v hv) (l v hv).nodup' hE (ps (c v)) (hps v hv) pf (l v hv).room' ords ho
      obtain ⟨q, e, -⟩ := hN N le_rfl
      rw [h N] at e; cases e
    · rintro ⟨v, hv, -, h⟩
      exact ⟨v, hv, h⟩
  · by_cases h : ∀ fuel, maximumMatching pf fuel ords g p = .timeout
    · exact .inl h
    · push Not at h
      obtain ⟨fuel, h⟩ := h
      right
      have np := C88_mixed_no_panic c g hs hg hh og oh he parts p ps hp hps hpp pf room kinds ords ho fuel
      rcases maximumMatching_spec (pf := pf) hg he fuel hp ho with ⟨q, e, -⟩ | e | ⟨m', e, -⟩ | e
      · exact ⟨fuel, q, e, C39_result_is_maximum g hg he p hp pf ords ho fuel q e⟩
      · exact absurd e (np _)
      · exact absurd e (np _)
      · exact absurd e h

end

/-! #### Example -/

/-- The calls that make a clique of four nodes (0 to 3), whose odd cycles share two nodes, and two triangles that share a node
(10 to 14) with two tails, in turns. -/
def k4AndSpiro : List GraphOp :=
  [.node 0, .node 14, .node 15, .node 1, .edge 14 15, .node 12, .edge 12 14, .edge 0 1, .node 2, .node 11, .edge 11 14, .node 16, .edge 11 16,
    .edge 1 2, .node 13, .edge 13 11, .node 3, .edge 0 2, .edge 3 0, .edge 15 12, .edge 14 13, .edge 3 1, .node 10, .edge 13 10, .edge 2 3]

/-- The part with a label: 0 for the clique, 1 for the triangles. -/
def k4AndSpiroPart (i : Nat) : GraphI :=
  ((k4AndSpiro.filter (fun o => o.ids.all (fun x => x / 10 == i))).foldl DefaultGraph.perform .new).toI

theorem k4AndSpiro_closed (i : Nat) : ∀ e ∈ (k4AndSpiro.foldl DefaultGraph.perform .new).toI.edges, (e.1 / 10 == i) = (e.2 / 10 == i) := by
  have : ∀ e ∈ (k4AndSpiro.foldl DefaultGraph.perform .new).toI.edges, e.1 / 10 = e.2 / 10 := by decide +kernel
  intro e h
  rw [this e h]

theorem k4AndSpiro_touch : (k4AndSpiroPart 1).OddCyclesTouch :=
  touch_of_test (C88_made_with_calls (fun x => x / 10 == 1) k4AndSpiro (k4AndSpiro_closed 1)).2.1 (by decide +kernel)

theorem k4AndSpiro_clique : (k4AndSpiroPart 0).EasyParts := by
  intro v hv
  have hl := (C88_made_with_calls (fun x => x / 10 == 0) k4AndSpiro (k4AndSpiro_closed 0)).2.1
  refine .inl fun x y hx hy hxy => ?_
  have mem : ∀ z, (k4AndSpiroPart 0).simple.Reachable v z → z ∈ (k4AndSpiroPart 0).nodes := fun z hz => reach_mem hl hz hv
  have all : ∀ x ∈ (k4AndSpiroPart 0).nodes, ∀ y ∈ (k4AndSpiroPart 0).nodes, x ≠ y → y ∈ (k4AndSpiroPart 0).nbr x := by decide +kernel
  exact GraphI.mem_nbr.1 (all x (mem x hx) y (mem y hy) hxy)

/-- The hypotheses hold of this graph, and two odd cycles of it share two nodes. -/
example (b : Bool) :
    let g := (k4AndSpiro.foldl DefaultGraph.perform .new).toI
    g.Lawful ∧ g.InEdgeOrder ∧ g.edges.Nodup ∧ Headroom (pf64 b) g ∧ g.nodes.length = 11 ∧
    (∀ v ∈ g.nodes, (k4AndSpiroPart (v / 10)).Lawful ∧ (k4AndSpiroPart (v / 10)).InEdgeOrder ∧
      GraphI.PartOn (fun x => x / 10 == v / 10) g (k4AndSpiroPart (v / 10)) ∧ Pairing.new.Matches (k4AndSpiroPart (v / 10)) ∧
      Pairing.PartOn (fun x => x / 10 == v / 10) .new .new ∧
      ((k4AndSpiroPart (v / 10)).EasyParts ∨ (k4AndSpiroPart (v / 10)).OddCyclesTouch)) ∧ Pairing.new.Matches g ∧ ¬ g.OddCyclesTouch := by
  intro g
  obtain ⟨h1, -, h3, -, h5, -⟩ := C88_made_with_calls (fun x => x / 10 == 0) k4AndSpiro (k4AndSpiro_closed 0)
  refine ⟨h1, h3, h5, headroom_of (by cases b <;> decide +kernel), by decide +kernel, ?_, matches_of_test (by decide +kernel), ?_⟩
  · intro v hv
    have hv' : v / 10 = 0 ∨ v / 10 = 1 := by
      have : ∀ v ∈ g.nodes, v / 10 = 0 ∨ v / 10 = 1 := by decide +kernel
      exact this v hv
    obtain ⟨-, k2, -, k4, -, k6⟩ := C88_made_with_calls (fun x => x / 10 == v / 10) k4AndSpiro (k4AndSpiro_closed _)
    refine ⟨k2, k4, k6, ?_, fun x y => ?_, ?_⟩
    · rcases hv' with e | e <;> rw [e] <;> exact matches_of_test (by decide +kernel)
    · simp [Pairing.mate_eq_ok, Pairing.new, Pairing.get]
    · rcases hv' with e | e <;> rw [e]
      · exact .inl k4AndSpiro_clique
      · exact .inr k4AndSpiro_touch
  · intro h
    have adj : ∀ a b, b ∈ g.nbr a → g.Adj a b := fun a b => GraphI.mem_nbr.1
    have c1 : OddCycle g [0, 1, 2] := ⟨by decide, by decide, by decide,
      List.isChain_cons_cons.2 ⟨adj _ _ (by decide +kernel), List.isChain_cons_cons.2 ⟨adj _ _ (by decide +kernel), .singleton _⟩⟩,
      by intro a b ha hb; simp at ha hb; subst ha hb; exact adj _ _ (by decide +kernel)⟩
    have c2 : OddCycle g [0, 1, 3] := ⟨by decide, by decide, by decide,
      List.isChain_cons_cons.2 ⟨adj _ _ (by decide +kernel), List.isChain_cons_cons.2 ⟨adj _ _ (by decide +kernel), .singleton _⟩⟩,
      by intro a b ha hb; simp at ha hb; subst ha hb; exact adj _ _ (by decide +kernel)⟩
    have := h _ _ 0 1 2 c1 c2 (by simp) (by simp) (by simp) (by simp) (by decide) (by simp)
    simp at this

end Gamma
