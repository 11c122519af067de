import Verif.Proofs.Touch
import Verif.Props.Grow
/-
Property C83 (and a part of C41, C42 and C44): where two odd cycles share at most one node.
-/
namespace Gamma
open Pairing Blossom

/-! ### C83 -/

/-- **C83, paths.**  Where two odd cycles share at most one node, every path the search finds is a path of the graph with an even number
of nodes. -/
theorem C83_paths_even (g : GraphI) (hg : g.Lawful) (he : g.edges.Nodup) (hT : g.OddCyclesTouch) (p : Pairing) (hp : p.Matches g)
    (pf : Platform) (path : List Nat) (h : Finds pf g p path) :
    path ≠ [] ∧ path.Nodup ∧ path.IsChain g.Adj ∧ path.length % 2 = 0 := by
  obtain ⟨ords, n, ho, e⟩ := h
  obtain ⟨h1, h2⟩ := augmentingPath_touch ho n hg he hp hT e
  exact ⟨h1.ne, h1.nodup, h1.chain, h2⟩

section
variable (g : GraphI) (hg : g.Lawful) (he : g.edges.Nodup) (hT : g.OddCyclesTouch) (pf : Platform) (hh : Headroom pf g)
  (p : Pairing) (hp : p.Matches g) (ords : List Bool → Nat → HashOrder) (ho : ∀ l i, (ords l i).Valid)
include hg he hT hh hp ho

/-- **C41 (and C83) where two odd cycles share at most one node.**  No panic, with any budget.  Missing: graphs with odd cycles that
share more than a node (`C41_panics`: false there). -/
theorem C41_no_panic_odd_cycles_touch_partial (fuel : Nat) (m : String) : maximumMatching pf fuel ords g p ≠ .panic m := by
  induction fuel generalizing p ords with
  | zero => intro h; simp [maximumMatching] at h
  | succ n ih =>
    rcases maximumMatching_succ (pf := pf) hg he hp ho n with ⟨h1, -⟩ | ⟨path, p1, -, -, -, -, hp1, h1⟩ | ⟨-, path, -, h1, h2, -⟩ |
      ⟨m', -, h1, -⟩ | ⟨h1, -⟩
    · rw [h1]; simp
    · rw [h1]
      have k1 := ih p1 hp1 (fun l => ords (false :: l)) (fun l i => ho (false :: l) i)
      rcases maximumMatching_spec (pf := pf) hg he n hp1 (fun l i => ho (false :: l) i) with ⟨p2, e, hp2, -⟩ | e | ⟨m', e, -⟩ | e
      · rw [e, Out.ok_bind]
        exact ih p2 hp2 (fun l => ords (true :: l)) (fun l i => ho (true :: l) i)
      · rw [e]; intro h; injection h with h; subst h; exact k1 e
      · rw [e]; intro h; injection h with h; subst h; exact k1 e
      · rw [e]; intro h; cases h
    · have := (augmentingPath_touch (ho []) n hg he hp hT h1).2
      omega
    · exact absurd hh h1
    · rw [h1]; simp

/-- **C83.**  Where two odd cycles share at most one node, `maximum_matching` either returns a maximum matching, whatever budget
suffices, or runs forever. -/
theorem C83_returns_maximum_or_runs_forever :
    (∃ N, ∀ fuel, N ≤ fuel → ∃ q, maximumMatching pf fuel ords g p = .ok q ∧ q.Matches g ∧
      ∀ ord : HashOrder, ord.Valid → IsMaximum g (q.edges ord)) ∨
    ∀ fuel, maximumMatching pf fuel ords g p = .timeout := by
  have key : ∀ fuel, (∃ q, maximumMatching pf fuel ords g p = .ok q) ∨ maximumMatching pf fuel ords g p = .timeout := by
    intro fuel
    have := C41_no_panic_odd_cycles_touch_partial g hg he hT pf hh p hp ords ho fuel
    rcases maximumMatching_spec (pf := pf) hg he fuel hp ho with ⟨q, e, -⟩ | e | ⟨m', e, -⟩ | e
    · exact .inl ⟨q, e⟩
    · exact absurd e (this _)
    · exact absurd e (this _)
    · exact .inr e
  by_cases hf : ∀ fuel, maximumMatching pf fuel ords g p = .timeout
  · exact .inr hf
  · left
    push Not at hf
    obtain ⟨N, hN⟩ := hf
    -- with identity orders, the outcome for N is stable
    have hid : maximumMatching pf N (fun _ _ => _root_.id) g p ≠ .timeout := by
      intro h
      rcases maximumMatching_congr (pf := pf) hg he N hp hp rfl (ords := ords) (ords' := fun _ _ => _root_.id) ho
        (fun _ _ => HashOrder.id_valid) with ⟨_, _, -, e, -⟩ | ⟨_, -, e⟩ | ⟨e, -⟩
      · rw [h] at e; cases e
      · rw [h] at e; cases e
      · exact hN e
    refine ⟨N, fun fuel hf => ?_⟩
    rcases key fuel with ⟨q, e⟩ | e
    · exact ⟨q, e, (C38_result_is_matching g hg he p hp pf ords ho fuel q e).1,
        C39_result_is_maximum g hg he p hp pf ords ho fuel q e⟩
    · exfalso
      have e2 : maximumMatching pf fuel (fun _ _ => _root_.id) g p = .timeout := by
        rcases maximumMatching_congr (pf := pf) hg he fuel hp hp rfl (ords := ords) (ords' := fun _ _ => _root_.id) ho
          (fun _ _ => HashOrder.id_valid) with ⟨_, _, e', -⟩ | ⟨_, e', -⟩ | ⟨-, e'⟩
        · rw [e] at e'; cases e'
        · rw [e] at e'; cases e'
        · exact e'
      have := (maximumMatching_le (pf := pf) (ord := _root_.id) hf g p).eq rfl hid
      rw [e2] at this
      exact hid this.symm

end

/-- **C83, the condition.**  It holds where no two odd cycles share a node, so where there is no odd cycle. -/
theorem C83_apart_touch (g : GraphI) (h : g.OddCyclesApart) : g.OddCyclesTouch := h.touch

/-! #### A test for the condition -/

/-- Each path of one node more. -/
def extendPath (g : GraphI) : List Nat → List (List Nat)
  | [] => g.nodes.map ([·])
  | x :: l => ((g.nbr x).filter (fun y => !(x :: l).contains y)).map (· :: x :: l)

/-- All paths of `k` nodes. -/
def pathsOf (g : GraphI) : Nat → List (List Nat)
  | 0 => [[]]
  | k + 1 => (pathsOf g k).flatMap (extendPath g)

theorem mem_pathsOf {g : GraphI} (hg : g.Lawful) : ∀ {l : List Nat}, l.Nodup → l.IsChain g.Adj → (∀ x ∈ l, x ∈ g.nodes) →
    l ∈ pathsOf g l.length := by
  intro l
  induction l with
  | nil => intros; simp [pathsOf]
  | cons x l ih =>
    intro hn hc hm
    have h1 := ih (List.nodup_cons.1 hn).2 hc.tail (fun y hy => hm y (by simp [hy]))
    rw [List.length_cons, pathsOf, List.mem_flatMap]
    refine ⟨l, h1, ?_⟩
    cases l with
    | nil => simp [extendPath, hm x (by simp)]
    | cons y l =>
      have hxy := (List.isChain_cons_cons.1 hc).1
      simp only [extendPath, List.mem_map, List.mem_filter]
      refine ⟨x, ⟨GraphI.mem_nbr.2 (hg.adj_symm _ _ hxy), ?_⟩, rfl⟩
      have := (List.nodup_cons.1 hn).1
      simp at this ⊢
      exact this

/-- All odd cycles. -/
def oddCyclesOf (g : GraphI) : List (List Nat) :=
  ((List.range (g.nodes.length + 1)).filter (fun k => k % 2 == 1 && decide (3 ≤ k))).flatMap fun k =>
    (pathsOf g k).filter fun C => match C.head?, C.getLast? with
      | some a, some b => (g.nbr b).contains a
      | _, _ => false

theorem mem_oddCyclesOf {g : GraphI} (hg : g.Lawful) {C : List Nat} (hC : OddCycle g C) : C ∈ oddCyclesOf g := by
  have hm : ∀ x ∈ C, x ∈ g.nodes := fun x hx => hC.mem_nodes hg hx
  unfold oddCyclesOf
  rw [List.mem_flatMap]
  refine ⟨C.length, ?_, ?_⟩
  · rw [List.mem_filter, List.mem_range]
    have := (hC.nodup.subperm hm).length_le
    exact ⟨by omega, by simp [hC.odd, hC.long]⟩
  · rw [List.mem_filter]
    refine ⟨mem_pathsOf hg hC.nodup hC.chain hm, ?_⟩
    have h3 := hC.long
    cases hh : C.head? with
    | none => rw [List.head?_eq_none_iff] at hh; rw [hh] at h3; simp at h3
    | some a =>
      cases hl : C.getLast? with
      | none => rw [List.getLast?_eq_none_iff] at hl; rw [hl] at h3; simp at h3
      | some b =>
        simp only
        rw [List.contains_iff_mem, GraphI.mem_nbr]
        exact hC.closes a b hh hl

def touchTest (g : GraphI) : Bool :=
  let cs := oddCyclesOf g
  cs.all fun C => cs.all fun D => decide ((C.filter D.contains).length ≤ 1) || C.all D.contains

theorem touch_of_test {g : GraphI} (hg : g.Lawful) (h : touchTest g = true) : g.OddCyclesTouch := by
  intro C D x y z hC hD hxC hxD hyC hyD hxy hz
  unfold touchTest at h
  simp only [List.all_eq_true, Bool.or_eq_true, decide_eq_true_eq] at h
  rcases h C (mem_oddCyclesOf hg hC) D (mem_oddCyclesOf hg hD) with h | h
  · have h1 : x ∈ C.filter D.contains := by simp [hxC, hxD]
    have h2 : y ∈ C.filter D.contains := by simp [hyC, hyD]
    have := two_le_of_ne h1 h2 hxy
    omega
  · exact List.contains_iff_mem.1 (h z hz)

/-! #### Neither C42 nor C44 hold there -/

/-- Five triangles, 5-8-3 and 5-4-10 at node 5, 1-0-6 and 1-2-7 at node 1, 7-9-11 at node 7, and the edge 5-1. -/
def spiroLoopG : DefaultGraph :=
  built 12 [(5, 8), (2, 1), (0, 6), (11, 7), (4, 5), (9, 11), (7, 9), (1, 0), (6, 1), (3, 5), (8, 3), (5, 10), (1, 7), (7, 2), (10, 4),
    (5, 1)]

/-- The pairings the run goes through; it alternates between the last two. -/
def spiroRun : List Pairing :=
  [⟨[]⟩, ⟨[(6, 0), (0, 6)]⟩, ⟨[(2, 1), (1, 2), (6, 0), (0, 6)]⟩, ⟨[(5, 3), (3, 5), (2, 1), (1, 2), (6, 0), (0, 6)]⟩,
    ⟨[(10, 4), (4, 10), (5, 3), (3, 5), (2, 1), (1, 2), (6, 0), (0, 6)]⟩,
    ⟨[(11, 7), (7, 11), (10, 4), (4, 10), (5, 3), (3, 5), (2, 1), (1, 2), (6, 0), (0, 6)]⟩,
    ⟨[(5, 1), (1, 5), (11, 7), (7, 11), (10, 4), (4, 10), (6, 0), (0, 6)]⟩,
    ⟨[(2, 1), (1, 2), (5, 3), (3, 5), (11, 7), (7, 11), (10, 4), (4, 10), (6, 0), (0, 6)]⟩]

theorem spiroLoop_touch : spiroLoopG.toI.OddCyclesTouch := touch_of_test (built_reachable _ _).lawful (by decide +kernel)

/-- **C42 is false even where two odd cycles share at most one node** (C83): on this graph, from the empty pairing, no budget
suffices. -/
theorem C42_diverges_where_odd_cycles_touch (b : Bool) (ords : List Bool → Nat → HashOrder) (ho : ∀ l i, (ords l i).Valid) (fuel : Nat) :
    spiroLoopG.toI.OddCyclesTouch ∧ maximumMatching (pf64 b) fuel ords spiroLoopG.toI Pairing.new = .timeout := by
  refine ⟨spiroLoop_touch, maximumMatching_diverges (built_reachable _ _).lawful (built_reachable _ _).loopExact.nodup
    (fun r => r ∈ spiroRun) ?_ ?_ fuel (p := Pairing.new) (by decide) ho⟩
  · have : ∀ r ∈ spiroRun, matchesTest r spiroLoopG.toI = true := by decide +kernel
    exact fun r hr => matches_of_test (this r hr)
  · have key : ∀ b, ∀ r ∈ spiroRun, (match augmentingPath (pf64 b) (fun _ => _root_.id) 40 spiroLoopG.toI r with
        | .ok (some path) => match r.augment path with
          | .ok r1 => spiroRun.contains r1
          | _ => false
        | _ => false) = true := by decide +kernel
    intro r hr
    have := key b r hr
    split at this
    · rename_i path e
      split at this
      · rename_i r1 e1
        exact ⟨40, path, r1, r1, e, e1, List.contains_iff_mem.1 this, rfl⟩
      · simp at this
    · simp at this

/-- Two triangles, 4-5-2 and 4-1-3, that share the node 4, and two more nodes, 6 at node 1 and 0 at node 3. -/
def spiroG : DefaultGraph := built 7 [(4, 5), (2, 4), (1, 4), (1, 6), (3, 1), (5, 2), (4, 3), (3, 0)]

theorem spiro_touch : spiroG.toI.OddCyclesTouch := touch_of_test (built_reachable _ _).lawful (by decide +kernel)

/-- **C44 is false even where two odd cycles share at most one node** (C83): node 5 is paired before the call and unpaired after
it. -/
theorem C44_uncovers_where_odd_cycles_touch (b : Bool) (ords : List Bool → Nat → HashOrder) (ho : ∀ l i, (ords l i).Valid) (fuel : Nat)
    (hf : 30 ≤ fuel) : spiroG.toI.OddCyclesTouch ∧ (pairingOf [(3, 1), (4, 5)]).Matches spiroG.toI ∧
    (pairingOf [(3, 1), (4, 5)]).hasNode 5 = true ∧
    ∃ q, maximumMatching (pf64 b) fuel ords spiroG.toI (pairingOf [(3, 1), (4, 5)]) = .ok q ∧ q.hasNode 5 = false := by
  have h0 : ∀ b, maximumMatching (pf64 b) 30 (fun _ _ => _root_.id) spiroG.toI (pairingOf [(3, 1), (4, 5)]) =
      .ok ⟨[(0, 3), (3, 0), (4, 2), (2, 4), (6, 1), (1, 6)]⟩ := by
    decide +kernel
  have h1 := (maximumMatching_le (pf := pf64 b) (ord := _root_.id) hf spiroG.toI (pairingOf [(3, 1), (4, 5)])).eq (h0 b) (by simp)
  have hm : (pairingOf [(3, 1), (4, 5)]).Matches spiroG.toI := matches_of_test (by decide +kernel)
  refine ⟨spiro_touch, hm, by decide, ?_⟩
  rcases maximumMatching_congr (pf := pf64 b) (built_reachable _ _).lawful (built_reachable _ _).loopExact.nodup fuel hm hm rfl
    (ords := fun _ _ => _root_.id) (fun _ _ => HashOrder.id_valid) ho with ⟨a, q, e1, e2, e3⟩ | ⟨m, e, -⟩ | ⟨e, -⟩
  · refine ⟨q, e2, ?_⟩
    have := h1.symm.trans e1
    injection this with this; subst this
    rw [hasNode_false, ← congrFun e3 5]; decide
  · exact absurd (h1.symm.trans e) (by simp)
  · exact absurd (h1.symm.trans e) (by simp)

/-- The hypotheses of C83 hold of both graphs, whose odd cycles are not apart. -/
example : spiroG.toI.Lawful ∧ spiroG.toI.edges.Nodup ∧ (∀ b, Headroom (pf64 b) spiroG.toI) ∧ Pairing.new.Matches spiroG.toI ∧
    ¬ spiroG.toI.OddCyclesApart ∧ (∀ b, Headroom (pf64 b) spiroLoopG.toI) := by
  refine ⟨(built_reachable _ _).lawful, (built_reachable _ _).loopExact.nodup, fun b => headroom_of (by cases b <;> decide +kernel),
    matches_of_test (by decide +kernel), fun h => ?_, fun b => headroom_of (by cases b <;> decide +kernel)⟩
  have adj : ∀ a b, b ∈ spiroG.toI.nbr a → spiroG.toI.Adj a b := fun a b => GraphI.mem_nbr.1
  have c1 : OddCycle spiroG.toI [4, 5, 2] := ⟨by decide, by decide, by decide,
    List.isChain_cons_cons.2 ⟨adj _ _ (by decide +kernel), List.isChain_cons_cons.2 ⟨adj _ _ (by decide +kernel), .singleton _⟩⟩,
    by intro a b ha hb; simp at ha hb; subst ha hb; exact adj _ _ (by decide +kernel)⟩
  have c2 : OddCycle spiroG.toI [4, 1, 3] := ⟨by decide, by decide, by decide,
    List.isChain_cons_cons.2 ⟨adj _ _ (by decide +kernel), List.isChain_cons_cons.2 ⟨adj _ _ (by decide +kernel), .singleton _⟩⟩,
    by intro a b ha hb; simp at ha hb; subst ha hb; exact adj _ _ (by decide +kernel)⟩
  have := h _ _ 4 5 c1 c2 (by simp) (by simp) (by simp)
  simp at this

end Gamma
