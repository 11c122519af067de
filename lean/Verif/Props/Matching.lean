import Verif.Proofs.MaxMatching
import Verif.Proofs.Good
import Verif.Props.Components
import Verif.Props.Pairing
/-
Properties C38–C46 and C49: `maximum_matching`.

Throughout, `g` is any graph that obeys the `Graph` contract and whose `edges()` repeats nothing (the contract alone
already excludes repetitions except of self-loops; every `DefaultGraph` has this, `C38_default_graph`), `p` is any
matching of `g`, `pf` any platform, and `ords` any assignment of hash iteration orders to the calls.
-/
namespace Gamma
open Pairing Blossom

/-- The graph `TryFrom<Vec<(usize, usize)>>` makes of a list of edges (the empty graph if it fails). -/
def graphOf (es : List (Nat × Nat)) : DefaultGraph :=
  match DefaultGraph.tryFromEdges es with
  | .ok g => g
  | _ => .new

theorem graphOf_reachable (es : List (Nat × Nat)) : (graphOf es).Reachable := by
  unfold graphOf
  split
  · rename_i g h; exact .fromEdges es g h
  · exact .new

theorem graphOf_lawful (es : List (Nat × Nat)) : (graphOf es).toI.Lawful := reachable_lawful _ (graphOf_reachable es)

theorem graphOf_edges (es : List (Nat × Nat)) : (graphOf es).toI.edges.Nodup := (graphOf_reachable es).loopExact.nodup

/-- The pairing made by pairing up a list. -/
def pairingOf (l : List (Nat × Nat)) : Pairing := l.foldl (fun p e => p.pair e.1 e.2) Pairing.new

/-- A decidable test for being a matching. -/
def matchesTest (p : Pairing) (g : GraphI) : Bool :=
  decide (p.pairs.map Prod.fst).Nodup &&
    p.pairs.all (fun e => e.1 != e.2 && (p.get e.2 == some e.1) && (g.nbr e.1).contains e.2)

theorem matches_of_test {p : Pairing} {g : GraphI} (h : matchesTest p g = true) : p.Matches g := by
  unfold matchesTest at h
  rw [Bool.and_eq_true, decide_eq_true_eq, List.all_eq_true] at h
  have key : ∀ x y, p.get x = some y → x ≠ y ∧ p.get y = some x ∧ g.Adj x y := by
    intro x y e
    have := h.2 (x, y) (HMap.mem_of_get e)
    simp only [Bool.and_eq_true, bne_iff_ne, beq_iff_eq, List.contains_iff_mem, GraphI.mem_nbr] at this
    exact ⟨this.1.1, this.1.2, this.2⟩
  exact matches_of (symmetric_of h.1 (fun x y e => ⟨(key x y e).1, (key x y e).2.1⟩)) (fun x y e => (key x y e).2.2)

/-- A 64-bit platform, with or without overflow checks. -/
def pf64 (checks : Bool) : Platform := ⟨2 ^ 64 - 1, checks⟩

/-- A triangle 0-1-2 with a tail 2-3: matching it from 1-2 needs a blossom. -/
def tri : DefaultGraph := graphOf [(0, 1), (0, 2), (1, 2), (2, 3)]

theorem tri_lawful : tri.toI.Lawful := graphOf_lawful _

theorem tri_run : ∀ b, maximumMatching (pf64 b) 14 (fun _ _ => id) tri.toI (pairingOf [(1, 2)]) =
    .ok (pairingOf [(0, 1), (2, 3)]) := by decide +kernel

theorem tri_matches : (pairingOf [(1, 2)]).Matches tri.toI := matches_of_test (by decide +kernel)

/-! ### C38 -/

/-- Every `DefaultGraph` meets the hypotheses on `g` used below. -/
theorem C38_default_graph (g : DefaultGraph) (hg : g.Reachable) : g.toI.Lawful ∧ g.toI.edges.Nodup :=
  ⟨reachable_lawful _ hg, hg.loopExact.nodup⟩

/-- **C38.** If `maximum_matching(g, p)` returns, `p` has become a symmetric pairing whose pairs are edges of `g`;
in every iteration order, its `edges()` form a matching. -/
theorem C38_result_is_matching (g : GraphI) (hg : g.Lawful) (he : g.edges.Nodup) (p : Pairing) (hp : p.Matches g)
    (pf : Platform) (ords : List Bool → Nat → HashOrder) (ho : ∀ l i, (ords l i).Valid) (fuel : Nat) (q : Pairing)
    (h : maximumMatching pf fuel ords g p = .ok q) :
    q.Matches g ∧ ∀ ord : HashOrder, ord.Valid → IsMatching g (q.edges ord) := by
  rcases maximumMatching_spec (pf := pf) hg he fuel hp ho with ⟨q', e, hq, -⟩ | e | ⟨m, e, -⟩ | e
  · rw [h] at e; injection e with e; subst e
    exact ⟨hq, fun ord ho => hq.isMatching ho⟩
  all_goals rw [h] at e; simp at e

example : tri.Reachable ∧ (pairingOf [(1, 2)]).Matches tri.toI ∧ ∀ b, ∃ q,
    maximumMatching (pf64 b) 14 (fun _ _ => id) tri.toI (pairingOf [(1, 2)]) = .ok q ∧ q.edges id = [(2, 3), (0, 1)] :=
  ⟨graphOf_reachable _, tri_matches, fun b => ⟨_, tri_run b, by decide⟩⟩

/-! ### C39 -/

/-- **C39.** If `maximum_matching(g, p)` returns, `p` has become a maximum matching of `g`. -/
theorem C39_result_is_maximum (g : GraphI) (hg : g.Lawful) (he : g.edges.Nodup) (p : Pairing) (hp : p.Matches g)
    (pf : Platform) (ords : List Bool → Nat → HashOrder) (ho : ∀ l i, (ords l i).Valid) (fuel : Nat) (q : Pairing)
    (h : maximumMatching pf fuel ords g p = .ok q) (ord : HashOrder) (hord : ord.Valid) :
    IsMaximum g (q.edges ord) := by
  rcases maximumMatching_spec (pf := pf) hg he fuel hp ho with ⟨q', e, hq, A, c, hC⟩ | e | ⟨m, e, -⟩ | e
  · rw [h] at e; injection e with e; subst e
    refine ⟨hq.isMatching hord, fun M hM => ?_⟩
    have h1 := hC.maximum hg hq hM
    have h2 := order_eq hord hq.symmetric
    omega
  all_goals rw [h] at e; simp at e

/-- **C39, in the words of the API.**  `order()` of the result is twice the number of edges of any maximum
matching. -/
theorem C39_order_of_result (g : GraphI) (hg : g.Lawful) (he : g.edges.Nodup) (p : Pairing) (hp : p.Matches g)
    (pf : Platform) (ords : List Bool → Nat → HashOrder) (ho : ∀ l i, (ords l i).Valid) (fuel : Nat) (q : Pairing)
    (h : maximumMatching pf fuel ords g p = .ok q) (M : List (Nat × Nat)) (hM : IsMaximum g M) :
    q.order = 2 * M.length := by
  have h1 := C39_result_is_maximum g hg he p hp pf ords ho fuel q h id HashOrder.id_valid
  have h2 := (C38_result_is_matching g hg he p hp pf ords ho fuel q h).1
  have := h1.2 M hM.1
  have := hM.2 _ h1.1
  have := order_eq HashOrder.id_valid h2.symmetric
  omega

example : ∀ b, ∃ q, maximumMatching (pf64 b) 14 (fun _ _ => id) tri.toI (pairingOf [(1, 2)]) = .ok q ∧ q.order = 4 :=
  fun b => ⟨_, tri_run b, by decide⟩

/-! ### C40 -/

/-- **C40.** A maximum matching is left as it was: the call returns, for every large enough budget, the very
pairing it was given. -/
theorem C40_maximum_unchanged (g : GraphI) (hg : g.Lawful) (he : g.edges.Nodup) (p : Pairing) (hp : p.Matches g)
    (ord : HashOrder) (hord : ord.Valid) (hmax : IsMaximum g (p.edges ord))
    (pf : Platform) (hh : Headroom pf g) (ords : List Bool → Nat → HashOrder) (ho : ∀ l i, (ords l i).Valid) :
    ∃ N, ∀ fuel, N ≤ fuel → maximumMatching pf fuel ords g p = .ok p := by
  refine ⟨g.nodes.length + g.depth + 3, fun fuel hf => ?_⟩
  obtain ⟨n, rfl⟩ : ∃ m, fuel = m + 1 := ⟨fuel - 1, by omega⟩
  have key : ∀ M, IsMatching g M → ¬ p.order < 2 * M.length := by
    intro M hM
    have := hmax.2 M hM
    have := order_eq hord hp.symmetric
    omega
  rcases maximumMatching_succ (pf := pf) hg he hp ho n with ⟨h1, -⟩ | ⟨path, p1, -, ⟨M, hM, hl⟩, -⟩ | ⟨-, path, -, -, -, M, hM, hl⟩ | ⟨m, -, h, -⟩ | ⟨-, -, h1⟩
  · exact h1
  · exact absurd hl (key M hM)
  · exact absurd hl (key M hM)
  · exact absurd hh h
  · omega

/-- **C40, converse.**  If the call returns with an equal pairing, it was a maximum matching; so the search is a
decision procedure for maximality. -/
theorem C40_unchanged_iff_maximum (g : GraphI) (hg : g.Lawful) (he : g.edges.Nodup) (p : Pairing) (hp : p.Matches g)
    (ord : HashOrder) (hord : ord.Valid)
    (pf : Platform) (hh : Headroom pf g) (ords : List Bool → Nat → HashOrder) (ho : ∀ l i, (ords l i).Valid) :
    IsMaximum g (p.edges ord) ↔ ∃ fuel, maximumMatching pf fuel ords g p = .ok p := by
  constructor
  · intro h
    obtain ⟨N, hN⟩ := C40_maximum_unchanged g hg he p hp ord hord h pf hh ords ho
    exact ⟨N, hN N (le_refl N)⟩
  · rintro ⟨fuel, h⟩
    exact C39_result_is_maximum g hg he p hp pf ords ho fuel p h ord hord

/-- A five-node graph with a maximum matching that is not perfect: a bow tie, two triangles that share a node. -/
def bow : DefaultGraph := graphOf [(0, 1), (1, 2), (2, 0), (2, 3), (3, 4), (4, 2)]

theorem headroom_of {pf : Platform} {g : GraphI} (h : g.nodes.all (fun v => decide (v + g.depth ≤ pf.usizeMax)) = true) :
    Headroom pf g := by
  intro v hv
  have := List.all_eq_true.1 h v hv
  simpa using this

example : (pairingOf [(0, 1), (3, 4)]).Matches bow.toI ∧ IsMaximum bow.toI ((pairingOf [(0, 1), (3, 4)]).edges id) ∧
    Headroom (pf64 true) bow.toI := by
  have hm : (pairingOf [(0, 1), (3, 4)]).Matches bow.toI := matches_of_test (by decide +kernel)
  refine ⟨hm, ?_, headroom_of (by decide +kernel)⟩
  exact C39_result_is_maximum bow.toI (graphOf_lawful _) (graphOf_edges _) _ hm (pf64 true) (fun _ _ => id)
    (fun _ _ => HashOrder.id_valid) 14 _ (by decide +kernel) id HashOrder.id_valid

/-! ### C41

The full statement — `maximum_matching` never panics — is false (`C41_panics`).  Proved: which panics are possible at
all, and that there are none on bipartite graphs, nor on graphs no two of whose
odd cycles meet, nor in a run whose paths are improving. -/

/-- **C41 is false in general**: on this graph with 6 nodes and 8 edges, from the empty pairing, every run panics in
`augment`, on 64-bit platforms with or without overflow checks. -/
def panicG : DefaultGraph := graphOf [(5, 1), (2, 1), (1, 0), (3, 2), (3, 5), (2, 0), (0, 5), (4, 2)]

theorem C41_panics (b : Bool) (ords : List Bool → Nat → HashOrder) (ho : ∀ l i, (ords l i).Valid) (fuel : Nat)
    (hf : 20 ≤ fuel) :
    maximumMatching (pf64 b) fuel ords panicG.toI Pairing.new = .panic "even path augmentation" := by
  have h0 : ∀ b, maximumMatching (pf64 b) 20 (fun _ _ => id) panicG.toI Pairing.new = .panic "even path augmentation" := by
    decide +kernel
  have h1 := (maximumMatching_le (pf := pf64 b) (ord := id) hf panicG.toI Pairing.new).eq (h0 b) (by simp)
  have hm : Pairing.new.Matches panicG.toI := matches_of_test (by decide +kernel)
  rcases maximumMatching_congr (pf := pf64 b) (graphOf_lawful _) (graphOf_edges _) fuel hm hm rfl
    (ords := fun _ _ => id) (fun _ _ => HashOrder.id_valid) ho with ⟨_, _, e, -⟩ | ⟨m, e, e'⟩ | ⟨e, -⟩
  · exact absurd (h1.symm.trans e) (by simp)
  · have := h1.symm.trans e; injection this with this; subst this; exact e'
  · exact absurd (h1.symm.trans e) (by simp)

/-- A graph with 6 nodes and 8 edges. -/
def greedyPanicG : DefaultGraph := graphOf [(0, 2), (1, 5), (0, 5), (4, 5), (1, 2), (1, 4), (0, 3), (0, 4)]

/-- **C41 fails from the greedy pairing too**: here `greedy` returns a matching, and every run of `maximum_matching` that
starts from it panics. -/
theorem C41_panics_from_greedy (b : Bool) (ords : List Bool → Nat → HashOrder) (ho : ∀ l i, (ords l i).Valid) (fuel : Nat)
    (hf : 20 ≤ fuel) : ∃ p, GreedyReturns greedyPanicG.toI p ∧ p.Matches greedyPanicG.toI ∧
      maximumMatching (pf64 b) fuel ords greedyPanicG.toI p = .panic "even path augmentation" := by
  have hm : (pairingOf [(0, 2), (1, 5)]).Matches greedyPanicG.toI := matches_of_test (by decide +kernel)
  refine ⟨pairingOf [(0, 2), (1, 5)], greedyReturns_of (N := 20) (by decide +kernel), hm, ?_⟩
  have h0 : ∀ b, maximumMatching (pf64 b) 20 (fun _ _ => id) greedyPanicG.toI (pairingOf [(0, 2), (1, 5)]) =
      .panic "even path augmentation" := by
    decide +kernel
  have h1 := (maximumMatching_le (pf := pf64 b) (ord := id) hf greedyPanicG.toI (pairingOf [(0, 2), (1, 5)])).eq (h0 b) (by simp)
  rcases maximumMatching_congr (pf := pf64 b) (graphOf_lawful _) (graphOf_edges _) fuel hm hm rfl
    (ords := fun _ _ => id) (fun _ _ => HashOrder.id_valid) ho with ⟨_, _, e, -⟩ | ⟨m, e, e'⟩ | ⟨e, -⟩
  · exact absurd (h1.symm.trans e) (by simp)
  · have := h1.symm.trans e; injection this with this; subst this; exact e'
  · exact absurd (h1.symm.trans e) (by simp)

/-- A graph with 12 nodes and 15 edges, no node of which has more than three neighbors. -/
def moleculeG : DefaultGraph :=
  graphOf [(6, 8), (2, 11), (5, 4), (2, 5), (10, 1), (4, 1), (7, 11), (0, 10), (10, 7), (6, 0), (3, 6), (4, 3), (7, 3),
    (1, 8), (9, 11)]

/-- Cycles are at least five nodes long if there are no triangles and no squares. -/
theorem cycles_ge_five {g : GraphI} (hg : g.Lawful)
    (h3 : ∀ a ∈ g.nodes, ∀ b ∈ g.nbr a, ∀ c ∈ g.nbr b, b ≠ a → c ≠ b → c ≠ a → a ∉ g.nbr c)
    (h4 : ∀ a ∈ g.nodes, ∀ b ∈ g.nbr a, ∀ c ∈ g.nbr b, c ≠ a → ∀ d ∈ g.nbr c, d ≠ b → d ≠ a → a ∉ g.nbr d)
    (x : Nat) (w : g.simple.Walk x x) (hw : w.IsCycle) : 5 ≤ w.length := by
  have hadj : ∀ {u v}, g.simple.Adj u v → u ≠ v ∧ u ∈ g.nodes ∧ v ∈ g.nbr u := by
    intro u v h
    have := (hg.simple_adj.1 h)
    exact ⟨this.1, hg.adj_src this.2, GraphI.mem_nbr.2 this.2⟩
  have := hw.three_le_length
  have hnd := hw.support_nodup
  match w, this, hnd with
  | .cons h1 (.cons h2 (.cons h3' .nil)), _, hnd =>
    exfalso
    have a1 := hadj h1; have a2 := hadj h2; have a3 := hadj h3'
    exact h3 _ a1.2.1 _ a1.2.2 _ a2.2.2 a1.1.symm a2.1.symm a3.1 a3.2.2
  | .cons h1 (.cons h2 (.cons h3' (.cons h4' .nil))), _, hnd =>
    exfalso
    have a1 := hadj h1; have a2 := hadj h2; have a3 := hadj h3'; have a4 := hadj h4'
    simp at hnd
    refine h4 _ a1.2.1 _ a1.2.2 _ a2.2.2 ?_ _ a3.2.2 ?_ a4.1 a4.2.2
    · exact fun e => hnd.2.1.2 e
    · exact fun e => hnd.1.2.1 e.symm
  | .cons h1 (.cons h2 (.cons h3' (.cons h4' (.cons h5 r)))), _, _ => simp

/-- **C41 fails on graphs like those of molecules**: no node has more than three neighbors, every cycle has at least five
nodes, the pairing is empty, and every run panics. -/
theorem C41_panics_molecule (b : Bool) (ords : List Bool → Nat → HashOrder) (ho : ∀ l i, (ords l i).Valid) (fuel : Nat)
    (hf : 30 ≤ fuel) : (∀ v ∈ moleculeG.toI.nodes, (moleculeG.toI.nbr v).length ≤ 3) ∧
      (∀ x (w : moleculeG.toI.simple.Walk x x), w.IsCycle → 5 ≤ w.length) ∧
      maximumMatching (pf64 b) fuel ords moleculeG.toI Pairing.new = .panic "even path augmentation" := by
  refine ⟨by decide +kernel, cycles_ge_five (graphOf_lawful _) (by decide +kernel) (by decide +kernel), ?_⟩
  have h0 : ∀ b, maximumMatching (pf64 b) 30 (fun _ _ => id) moleculeG.toI Pairing.new = .panic "even path augmentation" := by
    decide +kernel
  have h1 := (maximumMatching_le (pf := pf64 b) (ord := id) hf moleculeG.toI Pairing.new).eq (h0 b) (by simp)
  have hm : Pairing.new.Matches moleculeG.toI := matches_of_test (by decide +kernel)
  rcases maximumMatching_congr (pf := pf64 b) (graphOf_lawful _) (graphOf_edges _) fuel hm hm rfl
    (ords := fun _ _ => id) (fun _ _ => HashOrder.id_valid) ho with ⟨_, _, e, -⟩ | ⟨m, e, e'⟩ | ⟨e, -⟩
  · exact absurd (h1.symm.trans e) (by simp)
  · have := h1.symm.trans e; injection this with this; subst this; exact e'
  · exact absurd (h1.symm.trans e) (by simp)

/-- **C41, the possible panics.**  Only `augment`'s "even path augmentation", and, without headroom for the ids, the
overflow of `max_id + 1` (checks on) or the clash of the wrapped id with a node (checks off).  Missing: that the
first never happens (false in general). -/
theorem C41_possible_panics_partial (g : GraphI) (hg : g.Lawful) (he : g.edges.Nodup) (p : Pairing) (hp : p.Matches g)
    (pf : Platform) (ords : List Bool → Nat → HashOrder) (ho : ∀ l i, (ords l i).Valid) (fuel : Nat) (m : String)
    (h : maximumMatching pf fuel ords g p = .panic m) :
    m = "even path augmentation" ∨ (¬ Headroom pf g ∧
      ((m = overflowMsg ∧ pf.overflowChecks = true) ∨ (m = "bad graph" ∧ pf.overflowChecks = false))) := by
  rcases maximumMatching_spec (pf := pf) hg he fuel hp ho with ⟨q', e, -⟩ | e | ⟨m', e, h'⟩ | e
  · rw [h] at e; simp at e
  · rw [h] at e; injection e with e; exact .inl e
  · rw [h] at e; injection e with e; subst e; exact .inr h'
  · rw [h] at e; simp at e

/-- A two-colouring, as a function. -/
theorem colour_of {g : GraphI} (hg : g.Lawful) (hl : g.Loopless) (hb : g.simple.Colorable 2) :
    ∃ col : Nat → Bool, ∀ u v, g.Adj u v → col u ≠ col v := by
  obtain ⟨C⟩ := hb
  refine ⟨fun v => decide (C v = 0), fun u v ha => ?_⟩
  have hne : u ≠ v := by rintro rfl; exact hl u ha
  have := C.valid (hg.simple_adj.2 ⟨hne, ha⟩)
  intro e
  apply this
  simp only [decide_eq_decide] at e
  revert e
  generalize C u = a
  generalize C v = b
  revert a b
  decide

/-- **C41, C42, C44 on bipartite graphs.**  Whatever the platform (no headroom needed), the call returns for every
large enough budget, without a panic, a maximum matching, and every node paired before is paired after. -/
theorem bipartite_run (g : GraphI) (hg : g.Lawful) (hl : g.Loopless) (hb : g.simple.Colorable 2)
    (p : Pairing) (hp : p.Matches g) (pf : Platform) (ords : List Bool → Nat → HashOrder) (ho : ∀ l i, (ords l i).Valid)
    (fuel : Nat) (hf : 2 * g.nodes.length + 3 ≤ fuel) :
    ∃ q, maximumMatching pf fuel ords g p = .ok q ∧ ∀ x, p.hasNode x = true → q.hasNode x = true := by
  obtain ⟨col, hcol⟩ := colour_of hg hl hb
  obtain ⟨q, h1, -, -, h4⟩ := maximumMatching_bip (pf := pf) hg hcol g.nodes.length hp ho (by omega) (n := fuel) (by omega)
  exact ⟨q, h1, h4⟩

/-- **C41, bipartite graphs**: no panic, with any budget.  Missing: graphs with odd cycles (false there in
general). -/
theorem C41_no_panic_bipartite_partial (g : GraphI) (hg : g.Lawful) (he : g.edges.Nodup) (hl : g.Loopless)
    (hb : g.simple.Colorable 2) (p : Pairing) (hp : p.Matches g) (pf : Platform)
    (ords : List Bool → Nat → HashOrder) (ho : ∀ l i, (ords l i).Valid) (fuel : Nat) (m : String) :
    maximumMatching pf fuel ords g p ≠ .panic m := by
  intro h
  have hle := maximumMatching_le (pf := pf) (ord := id) (show fuel ≤ max fuel (2 * g.nodes.length + 3) by omega) g p
  obtain ⟨q, e, -⟩ := bipartite_run g hg hl hb p hp pf (fun _ _ => id) (fun _ _ => HashOrder.id_valid)
    (max fuel (2 * g.nodes.length + 3)) (by omega)
  rcases maximumMatching_congr (pf := pf) hg he fuel hp hp rfl (ords' := fun _ _ => id) ho
    (fun _ _ => HashOrder.id_valid) with ⟨_, _, e', -⟩ | ⟨m', -, e'⟩ | ⟨e', -⟩
  · rw [h] at e'; simp at e'
  · have := hle.eq e' (by simp)
    rw [e] at this; simp at this
  · rw [h] at e'; simp at e'

/-- **C41, C42, C44 in runs along improving paths.**  If every path the search finds, for a pairing the run goes
through, is improving for that pairing (every augmenting path is, `Augmenting.improving`), then the call returns for
every large enough budget, without a panic, and every node paired before is paired after.  So the only thing that can go
wrong is that a path lifted through a blossom is not improving. -/
theorem good_run (g : GraphI) (hg : g.Lawful) (he : g.edges.Nodup) (p : Pairing) (hp : p.Matches g) (pf : Platform)
    (hh : Headroom pf g) (good : ∀ r path, Visits pf g p r → Finds pf g r path → r.Improving path)
    (ords : List Bool → Nat → HashOrder) (ho : ∀ l i, (ords l i).Valid) (fuel : Nat)
    (hf : 2 * g.nodes.length + g.depth + 3 ≤ fuel) :
    ∃ q, maximumMatching pf fuel ords g p = .ok q ∧ ∀ x, p.hasNode x = true → q.hasNode x = true := by
  obtain ⟨q, h1, -, -, h4⟩ := maximumMatching_good (pf := pf) hg he hh p hp good g.nodes.length .start ho (by omega)
    (n := fuel) (by omega)
  exact ⟨q, h1, h4⟩

/-- **C41, runs along improving paths**: no panic, with any budget.  Missing: that every path found is improving
(false in general; true where odd cycles are apart, `C41_no_panic_odd_cycles_apart_partial`). -/
theorem C41_no_panic_good_partial (g : GraphI) (hg : g.Lawful) (he : g.edges.Nodup) (p : Pairing) (hp : p.Matches g)
    (pf : Platform) (hh : Headroom pf g) (good : ∀ r path, Visits pf g p r → Finds pf g r path → r.Improving path)
    (ords : List Bool → Nat → HashOrder) (ho : ∀ l i, (ords l i).Valid) (fuel : Nat) (m : String) :
    maximumMatching pf fuel ords g p ≠ .panic m := by
  intro h
  have hle := maximumMatching_le (pf := pf) (ord := id) (show fuel ≤ max fuel (2 * g.nodes.length + g.depth + 3) by omega) g p
  obtain ⟨q, e, -⟩ := good_run g hg he p hp pf hh good (fun _ _ => id) (fun _ _ => HashOrder.id_valid)
    (max fuel (2 * g.nodes.length + g.depth + 3)) (by omega)
  rcases maximumMatching_congr (pf := pf) hg he fuel hp hp rfl (ords' := fun _ _ => id) ho
    (fun _ _ => HashOrder.id_valid) with ⟨_, _, e', -⟩ | ⟨m', -, e'⟩ | ⟨e', -⟩
  · rw [h] at e'; simp at e'
  · have := hle.eq e' (by simp)
    rw [e] at this; simp at this
  · rw [h] at e'; simp at e'

/-- Where no two odd cycles share a node, every path the search finds is improving. -/
theorem apart_good (g : GraphI) (hg : g.Lawful) (he : g.edges.Nodup) (hA : g.OddCyclesApart) (p : Pairing) (hp : p.Matches g)
    (pf : Platform) : ∀ r path, Visits pf g p r → Finds pf g r path → r.Improving path := by
  rintro r path hv ⟨ords, n, ho, e⟩
  exact (augmentingPath_good ho n hg he (hv.matches_ hg he hp) hA e).improving

/-- **C41 where no two odd cycles share a node** (so in all bipartite graphs, with or without self-loops, all
odd cycles, all trees with disjoint odd cycles hung in, …): no panic.  Missing: graphs with odd cycles that
meet. -/
theorem C41_no_panic_odd_cycles_apart_partial (g : GraphI) (hg : g.Lawful) (he : g.edges.Nodup) (hA : g.OddCyclesApart)
    (p : Pairing) (hp : p.Matches g) (pf : Platform) (hh : Headroom pf g)
    (ords : List Bool → Nat → HashOrder) (ho : ∀ l i, (ords l i).Valid) (fuel : Nat) (m : String) :
    maximumMatching pf fuel ords g p ≠ .panic m :=
  C41_no_panic_good_partial g hg he p hp pf hh (apart_good g hg he hA p hp pf) ords ho fuel m

theorem Finds.eq {pf : Platform} {g : GraphI} (hg : g.Lawful) (he : g.edges.Nodup) {p : Pairing} (hp : p.Matches g)
    {path : List Nat} (h : Finds pf g p path) {N : Nat} {o : Option (List Nat)}
    (e : augmentingPath pf (fun _ => id) N g p = .ok o) : o = some path := by
  obtain ⟨ords, n, ho, h⟩ := h
  rcases augmentingPath_stable hg he hp hp rfl e (by simp) ho n with h' | h'
  · rw [h] at h'; simp at h'
  · rw [h] at h'; injection h' with h'; exact h'.symm

/-- On the triangle with a tail, from 1-2, all paths found are augmenting although one is lifted through a
blossom: the hypothesis `good` is met by a graph with an odd cycle. -/
theorem tri_good (b : Bool) : ∀ r path, Visits (pf64 b) tri.toI (pairingOf [(1, 2)]) r → Finds (pf64 b) tri.toI r path →
    r.Augmenting path := by
  have e1 : ∀ b, augmentingPath (pf64 b) (fun _ => id) 14 tri.toI (pairingOf [(1, 2)]) = .ok (some [0, 1, 2, 3]) := by
    decide +kernel
  have e2 : ∀ b, augmentingPath (pf64 b) (fun _ => id) 14 tri.toI (pairingOf [(0, 1), (2, 3)]) = .ok none := by
    decide +kernel
  have m2 : (pairingOf [(0, 1), (2, 3)]).Matches tri.toI := matches_of_test (by decide +kernel)
  have he : tri.toI.edges.Nodup := graphOf_edges _
  have f1 := fun path (h : Finds (pf64 b) tri.toI (pairingOf [(1, 2)]) path) => Finds.eq tri_lawful he tri_matches h (e1 b)
  have f2 := fun path (h : Finds (pf64 b) tri.toI (pairingOf [(0, 1), (2, 3)]) path) => Finds.eq tri_lawful he m2 h (e2 b)
  have hv : ∀ r, Visits (pf64 b) tri.toI (pairingOf [(1, 2)]) r → r = pairingOf [(1, 2)] ∨ r = pairingOf [(0, 1), (2, 3)] := by
    intro r h
    induction h with
    | start => exact .inl rfl
    | step r r' path _ hf ha ih =>
      rcases ih with rfl | rfl
      · have := f1 path hf
        injection this with this
        subst this
        right
        have h' : (pairingOf [(1, 2)]).augment [0, 1, 2, 3] = .ok (pairingOf [(0, 1), (2, 3)]) := by decide +kernel
        rw [h'] at ha; injection ha with ha; exact ha.symm
      · have := f2 path hf; simp at this
  intro r path h1 h2
  rcases hv r h1 with rfl | rfl
  · have := f1 path h2
    injection this with this
    subst this
    refine ⟨by decide, by decide, by decide, by decide, ?_⟩
    intro i a b h1 h2
    rcases i with _ | i
    · simp at h1 h2; subst h1 h2; decide
    · rw [List.getElem?_eq_none (by simp)] at h2; simp at h2
  · have := f2 path h2; simp at this

example : Headroom (pf64 true) tri.toI := headroom_of (by decide +kernel)

example (b : Bool) : ∀ r path, Visits (pf64 b) tri.toI (pairingOf [(1, 2)]) r → Finds (pf64 b) tri.toI r path →
    r.Improving path := fun r path hv hf => (tri_good b r path hv hf).improving
      (hv.matches_ tri_lawful (graphOf_edges _) tri_matches).symmetric
      (hf.isPath tri_lawful (graphOf_edges _) (hv.matches_ tri_lawful (graphOf_edges _) tri_matches)).1.ne

/-- The triangle with a tail has one odd cycle. -/
theorem tri_apart : tri.toI.OddCyclesApart ∧ OddCycle tri.toI [0, 1, 2] := by
  have hn : tri.toI.nodes = [0, 1, 2, 3] := by decide +kernel
  have adj : ∀ a b, tri.toI.Adj a b ↔ b ∈ tri.toI.nbr a := fun a b => GraphI.mem_nbr.symm
  have form : ∀ C, OddCycle tri.toI C → ∀ x, x ∈ C ↔ x ∈ [0, 1, 2] := by
    intro C hC
    have hsub : ∀ x ∈ C, x ∈ [0, 1, 2, 3] := fun x hx => hn ▸ hC.mem_nodes tri_lawful hx
    have hl := (hC.nodup.subperm hsub).length_le
    have h3 := hC.long
    have ho := hC.odd
    simp at hl
    obtain ⟨a, b, c, rfl⟩ := List.length_eq_three.1 (show C.length = 3 by omega)
    have hch := hC.chain
    rw [List.isChain_cons_cons, List.isChain_cons_cons] at hch
    have h1 := (adj _ _).1 hch.1
    have h2 := (adj _ _).1 hch.2.1
    have h4 := (adj _ _).1 (hC.closes a c rfl rfl)
    have key : ∀ a ∈ [0, 1, 2, 3], ∀ b ∈ [0, 1, 2, 3], ∀ c ∈ [0, 1, 2, 3], b ∈ tri.toI.nbr a → c ∈ tri.toI.nbr b →
        a ∈ tri.toI.nbr c → [a, b, c].Nodup → (∀ x ∈ [a, b, c], x ∈ [0, 1, 2]) ∧ (∀ x ∈ [0, 1, 2], x ∈ [a, b, c]) := by
      decide +kernel
    have := key a (hsub a (by simp)) b (hsub b (by simp)) c (hsub c (by simp)) h1 h2 h4 hC.nodup
    exact fun x => ⟨this.1 x, this.2 x⟩
  refine ⟨fun C D x y hC hD _ _ hy => (form D hD y).2 ((form C hC y).1 hy), by decide, by decide, by decide, ?_, ?_⟩
  · rw [List.isChain_cons_cons, List.isChain_cons_cons, adj, adj]
    exact ⟨by decide +kernel, by decide +kernel, .singleton _⟩
  · intro a b ha hb
    simp at ha hb; subst ha hb
    rw [adj]; decide +kernel

/-- The theorem applies to a run through a blossom, `tri_run`. -/
example (b : Bool) (fuel : Nat) (m : String) :
    maximumMatching (pf64 b) fuel (fun _ _ => id) tri.toI (pairingOf [(1, 2)]) ≠ .panic m :=
  C41_no_panic_odd_cycles_apart_partial _ tri_lawful (graphOf_edges _) tri_apart.1 _ tri_matches (pf64 b)
    (headroom_of (by cases b <;> decide +kernel)) _ (fun _ _ => HashOrder.id_valid) fuel m

/-! ### C42

The full statement — `maximum_matching` returns — is false (`C42_diverges`): on some graphs it alternates between two
matchings for ever (in Rust, recursing each time).  Proved: each search ends, and bipartite runs, runs along
improving paths, and runs on graphs no two of whose odd cycles meet, end. -/

/-- A graph with 9 nodes and 14 edges. -/
def loopG : DefaultGraph :=
  graphOf [(2, 0), (4, 5), (4, 1), (2, 1), (3, 0), (0, 8), (4, 3), (5, 0), (0, 6), (0, 4), (3, 8), (6, 5), (7, 4), (8, 7)]

/-- The pairings the run goes through. -/
def loopRun : List Pairing :=
  [⟨[]⟩, ⟨[(0, 2), (2, 0)]⟩, ⟨[(5, 4), (4, 5), (0, 2), (2, 0)]⟩,
    ⟨[(1, 2), (2, 1), (0, 3), (3, 0), (5, 4), (4, 5)]⟩,
    ⟨[(6, 0), (0, 6), (3, 4), (4, 3), (1, 2), (2, 1)]⟩, ⟨[(8, 0), (0, 8), (5, 4), (4, 5), (1, 2), (2, 1)]⟩]

/-- **C42 is false in general**: on this graph, from the empty pairing, no budget suffices. -/
theorem C42_diverges (b : Bool) (ords : List Bool → Nat → HashOrder) (ho : ∀ l i, (ords l i).Valid) (fuel : Nat) :
    maximumMatching (pf64 b) fuel ords loopG.toI Pairing.new = .timeout := by
  refine maximumMatching_diverges (graphOf_lawful _) (graphOf_edges _) (fun r => r ∈ loopRun) ?_ ?_ fuel (p := Pairing.new)
    (by decide) ho
  · have : ∀ r ∈ loopRun, matchesTest r loopG.toI = true := by decide +kernel
    exact fun r hr => matches_of_test (this r hr)
  · have key : ∀ b, ∀ r ∈ loopRun, (match augmentingPath (pf64 b) (fun _ => id) 40 loopG.toI r with
        | .ok (some path) => match r.augment path with
          | .ok r1 => loopRun.contains r1
          | _ => false
        | _ => false) = true := by decide +kernel
    intro r hr
    have := key b r hr
    split at this
    · rename_i path e
      split at this
      · rename_i r1 e1
        exact ⟨40, path, r1, r1, e, e1, List.contains_iff_mem.1 this, rfl⟩
      · simp at this
    · simp at this

/-- **C42, the search.**  A single search for a path always ends: with a budget that exceeds a bound in the size of
the graph, whatever the pairing, the platform and the iteration orders.  Missing: that the number of searches is
finite (false in general). -/
theorem C42_search_ends_partial (g : GraphI) (hg : g.Lawful) (he : g.edges.Nodup) (p : Pairing) (hp : p.Matches g)
    (pf : Platform) (ords : Nat → HashOrder) (ho : ∀ i, (ords i).Valid) (fuel : Nat)
    (hf : g.nodes.length + g.depth + 2 ≤ fuel) : augmentingPath pf ords fuel g p ≠ .timeout := by
  intro h
  have := (augmentingPath_spec (pf := pf) ho ho fuel hg he hp hp rfl).1
  rw [h] at this
  have : fuel ≤ g.nodes.length + g.depth + 1 := this
  omega

/-- **C42, bipartite graphs.**  There is one result such that with every large enough budget, and all iteration
orders, the call returns it (up to `==`).  Missing: graphs with odd cycles (false there in general). -/
theorem C42_ends_bipartite_partial (g : GraphI) (hg : g.Lawful) (he : g.edges.Nodup) (hl : g.Loopless)
    (hb : g.simple.Colorable 2) (p : Pairing) (hp : p.Matches g) (pf : Platform) :
    ∃ q : Pairing, ∀ fuel, 2 * g.nodes.length + 3 ≤ fuel → ∀ ords : List Bool → Nat → HashOrder,
      (∀ l i, (ords l i).Valid) → ∃ q', maximumMatching pf fuel ords g p = .ok q' ∧ q'.eq q = true := by
  obtain ⟨q, h, -⟩ := bipartite_run g hg hl hb p hp pf (fun _ _ => id) (fun _ _ => HashOrder.id_valid) _ (le_refl _)
  have hq := (C38_result_is_matching g hg he p hp pf _ (fun _ _ => HashOrder.id_valid) _ q h).1
  refine ⟨q, fun fuel hf ords ho => ?_⟩
  have h1 := (maximumMatching_le (pf := pf) (ord := id) hf g p).eq h (by simp)
  rcases maximumMatching_congr (pf := pf) hg he fuel hp hp rfl (ords := fun _ _ => id)
    (fun _ _ => HashOrder.id_valid) ho with ⟨a, b, e1, e2, e3⟩ | ⟨m', e', -⟩ | ⟨e', -⟩
  · rw [h1] at e1; injection e1 with e1; subst e1
    have hb := (C38_result_is_matching g hg he p hp pf ords ho fuel b e2).1
    exact ⟨b, e2, (eq_iff hb.symmetric.keys_nodup hq.symmetric.keys_nodup).2 (fun x => (congrFun e3 x).symm)⟩
  · rw [h1] at e'; simp at e'
  · rw [h1] at e'; simp at e'

/-- **C42, runs along improving paths.**  Missing: that every path found is improving (false in general). -/
theorem C42_ends_good_partial (g : GraphI) (hg : g.Lawful) (he : g.edges.Nodup) (p : Pairing) (hp : p.Matches g) (pf : Platform)
    (hh : Headroom pf g) (good : ∀ r path, Visits pf g p r → Finds pf g r path → r.Improving path)
    (ords : List Bool → Nat → HashOrder) (ho : ∀ l i, (ords l i).Valid) :
    ∃ N, ∀ fuel, N ≤ fuel → ∃ q, maximumMatching pf fuel ords g p = .ok q :=
  ⟨_, fun fuel hf => by
    obtain ⟨q, h, -⟩ := good_run g hg he p hp pf hh good ords ho fuel hf
    exact ⟨q, h⟩⟩

/-- **C42 where no two odd cycles share a node.**  Missing: graphs with odd cycles that meet (`C42_diverges`: false
there). -/
theorem C42_ends_odd_cycles_apart_partial (g : GraphI) (hg : g.Lawful) (he : g.edges.Nodup) (hA : g.OddCyclesApart)
    (p : Pairing) (hp : p.Matches g) (pf : Platform) (hh : Headroom pf g)
    (ords : List Bool → Nat → HashOrder) (ho : ∀ l i, (ords l i).Valid) :
    ∃ N, ∀ fuel, N ≤ fuel → ∃ q, maximumMatching pf fuel ords g p = .ok q :=
  C42_ends_good_partial g hg he p hp pf hh (apart_good g hg he hA p hp pf) ords ho

/-- The hypotheses of C42: for every pairing of any graph; for a path; for the triangle with a tail, whose odd cycle is alone, and
all paths found there are improving. -/
example (b : Bool) : (pathG.toI.Loopless ∧ pathG.toI.simple.Colorable 2 ∧ pathG.toI.edges.Nodup ∧ (pairingOf [(1, 2)]).Matches pathG.toI) ∧
    (tri.toI.Lawful ∧ tri.toI.edges.Nodup ∧ tri.toI.OddCyclesApart ∧ OddCycle tri.toI [0, 1, 2] ∧
      (pairingOf [(1, 2)]).Matches tri.toI ∧ Headroom (pf64 b) tri.toI ∧
      ∀ r path, Visits (pf64 b) tri.toI (pairingOf [(1, 2)]) r → Finds (pf64 b) tri.toI r path → r.Improving path) :=
  ⟨⟨pathG_loopless, pathG_acyclic.isBipartite, by decide +kernel, matches_of_test (by decide +kernel)⟩,
    tri_lawful, graphOf_edges _, tri_apart.1, tri_apart.2, tri_matches, headroom_of (by cases b <;> decide +kernel),
    fun r path hv hf => (tri_good b r path hv hf).improving
      (hv.matches_ tri_lawful (graphOf_edges _) tri_matches).symmetric
      (hf.isPath tri_lawful (graphOf_edges _) (hv.matches_ tri_lawful (graphOf_edges _) tri_matches)).1.ne⟩

/-! ### C43 -/

/-- **C43.** For one graph and equal (`==`) pairings, any two runs with the same budget end the same way, with equal
pairings if they return, whatever the iteration orders. -/
theorem C43_order_independent (g : GraphI) (hg : g.Lawful) (he : g.edges.Nodup) (p q : Pairing) (hp : p.Matches g)
    (hq : q.Matches g) (hpq : p.eq q = true) (pf : Platform)
    (ords ords' : List Bool → Nat → HashOrder) (ho : ∀ l i, (ords l i).Valid) (ho' : ∀ l i, (ords' l i).Valid) (fuel : Nat) :
    Out.SameBy (fun a b => a.eq b = true) (maximumMatching pf fuel ords g p) (maximumMatching pf fuel ords' g q) := by
  have hget : p.get = q.get := funext ((eq_iff hp.symmetric.keys_nodup hq.symmetric.keys_nodup).1 hpq)
  have k := fun (r : Pairing) (hr : r.Matches g) (o : List Bool → Nat → HashOrder) (hov : ∀ l i, (o l i).Valid) (r' : Pairing)
    (e : maximumMatching pf fuel o g r = .ok r') => (C38_result_is_matching g hg he r hr pf o hov fuel r' e).1.symmetric.keys_nodup
  rcases maximumMatching_congr (pf := pf) hg he fuel hp hq hget ho ho' with ⟨a, b, e1, e2, e3⟩ | ⟨m, e1, e2⟩ | ⟨e1, e2⟩
  · rw [e1, e2]
    exact (eq_iff (k p hp ords ho a e1) (k q hq ords' ho' b e2)).2 (fun x => congrFun e3 x)
  · rw [e1, e2]; exact rfl
  · rw [e1, e2]; exact trivial

example : (pairingOf [(1, 2)]).eq (pairingOf [(2, 1)]) = true ∧ pairingOf [(1, 2)] ≠ pairingOf [(2, 1)] ∧
    (pairingOf [(2, 1)]).Matches tri.toI ∧ HashOrder.Valid List.reverse :=
  ⟨by decide, by decide, matches_of_test (by decide +kernel), reverse_valid⟩

/-! ### C44

The full statement — every node paired before is paired after — is false (`C44_uncovers`).  Proved for bipartite
graphs, and for runs along augmenting paths. -/

/-- A graph with 9 nodes and 12 edges. -/
def uncoverG : DefaultGraph :=
  graphOf [(0, 5), (8, 0), (0, 2), (7, 8), (1, 4), (6, 1), (4, 5), (6, 0), (4, 7), (1, 5), (4, 8), (3, 5)]

/-- **C44 is false in general**: node 7 is paired before the call and unpaired after it. -/
theorem C44_uncovers (b : Bool) (ords : List Bool → Nat → HashOrder) (ho : ∀ l i, (ords l i).Valid) (fuel : Nat)
    (hf : 30 ≤ fuel) : (pairingOf [(1, 5), (4, 7), (6, 0)]).Matches uncoverG.toI ∧
    (pairingOf [(1, 5), (4, 7), (6, 0)]).hasNode 7 = true ∧
    ∃ q, maximumMatching (pf64 b) fuel ords uncoverG.toI (pairingOf [(1, 5), (4, 7), (6, 0)]) = .ok q ∧
      q.hasNode 7 = false := by
  have h0 : ∀ b, maximumMatching (pf64 b) 30 (fun _ _ => id) uncoverG.toI (pairingOf [(1, 5), (4, 7), (6, 0)]) =
      .ok ⟨[(3, 5), (5, 3), (2, 0), (0, 2), (8, 4), (4, 8), (1, 6), (6, 1)]⟩ := by
    decide +kernel
  have h1 := (maximumMatching_le (pf := pf64 b) (ord := id) hf uncoverG.toI (pairingOf [(1, 5), (4, 7), (6, 0)])).eq (h0 b) (by simp)
  have hm : (pairingOf [(1, 5), (4, 7), (6, 0)]).Matches uncoverG.toI := matches_of_test (by decide +kernel)
  refine ⟨hm, by decide, ?_⟩
  rcases maximumMatching_congr (pf := pf64 b) (graphOf_lawful _) (graphOf_edges _) fuel hm hm rfl
    (ords := fun _ _ => id) (fun _ _ => HashOrder.id_valid) ho with ⟨a, q, e, e', hget⟩ | ⟨m, e, -⟩ | ⟨e, -⟩
  · have := h1.symm.trans e
    injection this with this
    subst this
    exact ⟨q, e', by rw [hasNode_eq, ← hget]; decide⟩
  · exact absurd (h1.symm.trans e) (by simp)
  · exact absurd (h1.symm.trans e) (by simp)

/-- **C44, bipartite graphs.**  Missing: graphs with odd cycles (false there in general). -/
theorem C44_covers_bipartite_partial (g : GraphI) (hg : g.Lawful) (he : g.edges.Nodup) (hl : g.Loopless)
    (hb : g.simple.Colorable 2) (p : Pairing) (hp : p.Matches g) (pf : Platform)
    (ords : List Bool → Nat → HashOrder) (ho : ∀ l i, (ords l i).Valid) (fuel : Nat) (q : Pairing)
    (h : maximumMatching pf fuel ords g p = .ok q) (x : Nat) (hx : p.hasNode x = true) : q.hasNode x = true := by
  have hle := maximumMatching_le (pf := pf) (ord := id) (show fuel ≤ max fuel (2 * g.nodes.length + 3) by omega) g p
  obtain ⟨q', e, hc⟩ := bipartite_run g hg hl hb p hp pf (fun _ _ => id) (fun _ _ => HashOrder.id_valid)
    (max fuel (2 * g.nodes.length + 3)) (by omega)
  rcases maximumMatching_congr (pf := pf) hg he fuel hp hp rfl (ords' := fun _ _ => id) ho
    (fun _ _ => HashOrder.id_valid) with ⟨a, b, e1, e2, e3⟩ | ⟨m', e', -⟩ | ⟨e', -⟩
  · rw [h] at e1; injection e1 with e1; subst e1
    have := hle.eq e2 (by simp)
    rw [e] at this; injection this with this; subst this
    rw [hasNode_eq, e3, ← hasNode_eq]
    exact hc x hx
  · rw [h] at e'; simp at e'
  · rw [h] at e'; simp at e'

/-- **C44, runs along improving paths.**  Missing: that every path found is improving (false in general). -/
theorem C44_covers_good_partial (g : GraphI) (hg : g.Lawful) (he : g.edges.Nodup) (p : Pairing) (hp : p.Matches g) (pf : Platform)
    (hh : Headroom pf g) (good : ∀ r path, Visits pf g p r → Finds pf g r path → r.Improving path)
    (ords : List Bool → Nat → HashOrder) (ho : ∀ l i, (ords l i).Valid) (fuel : Nat) (q : Pairing)
    (h : maximumMatching pf fuel ords g p = .ok q) (x : Nat) (hx : p.hasNode x = true) : q.hasNode x = true := by
  have hle := maximumMatching_le (pf := pf) (ord := id) (show fuel ≤ max fuel (2 * g.nodes.length + g.depth + 3) by omega) g p
  obtain ⟨q', e, hc⟩ := good_run g hg he p hp pf hh good (fun _ _ => id) (fun _ _ => HashOrder.id_valid)
    (max fuel (2 * g.nodes.length + g.depth + 3)) (by omega)
  rcases maximumMatching_congr (pf := pf) hg he fuel hp hp rfl (ords' := fun _ _ => id) ho
    (fun _ _ => HashOrder.id_valid) with ⟨a, b, e1, e2, e3⟩ | ⟨m', e', -⟩ | ⟨e', -⟩
  · rw [h] at e1; injection e1 with e1; subst e1
    have := hle.eq e2 (by simp)
    rw [e] at this; injection this with this; subst this
    rw [hasNode_eq, e3, ← hasNode_eq]
    exact hc x hx
  · rw [h] at e'; simp at e'
  · rw [h] at e'; simp at e'

/-- **C44 where no two odd cycles share a node.**  Missing: graphs with odd cycles that meet. -/
theorem C44_covers_odd_cycles_apart_partial (g : GraphI) (hg : g.Lawful) (he : g.edges.Nodup) (hA : g.OddCyclesApart)
    (p : Pairing) (hp : p.Matches g) (pf : Platform) (hh : Headroom pf g)
    (ords : List Bool → Nat → HashOrder) (ho : ∀ l i, (ords l i).Valid) (fuel : Nat) (q : Pairing)
    (h : maximumMatching pf fuel ords g p = .ok q) (x : Nat) (hx : p.hasNode x = true) : q.hasNode x = true :=
  C44_covers_good_partial g hg he p hp pf hh (apart_good g hg he hA p hp pf) ords ho fuel q h x hx

/-- The path 1-0, 1-2, 2-3 of `Props/Traversal.lean` is bipartite, so the bipartite theorems apply to it. -/
example : pathG.toI.Lawful ∧ pathG.toI.edges.Nodup ∧ pathG.toI.Loopless ∧ pathG.toI.simple.Colorable 2 ∧
    (pairingOf [(1, 2)]).Matches pathG.toI ∧
    maximumMatching (pf64 true) 12 (fun _ _ => id) pathG.toI (pairingOf [(1, 2)]) =
      .ok (pairingOf [(3, 2), (1, 0)]) := by
  refine ⟨pathG_lawful, by decide +kernel, pathG_loopless, ?_, matches_of_test (by decide +kernel), by decide +kernel⟩
  exact pathG_acyclic.isBipartite

/-! ### C45 -/

/-- **C45.** If the largest node id plus half the number of nodes plus the number of self-looped nodes does not exceed
`usize::MAX`, `max_id + 1` never overflows: the only possible panic is `augment`'s. -/
theorem C45_no_overflow (g : GraphI) (hg : g.Lawful) (he : g.edges.Nodup) (p : Pairing) (hp : p.Matches g)
    (pf : Platform)
    (hh : ∀ v ∈ g.nodes, v + (g.nodes.length / 2 + g.nodes.countP (fun u => (g.nbr u).contains u)) ≤ pf.usizeMax)
    (ords : List Bool → Nat → HashOrder) (ho : ∀ l i, (ords l i).Valid) (fuel : Nat) (m : String)
    (h : maximumMatching pf fuel ords g p = .panic m) : m = "even path augmentation" := by
  rcases C41_possible_panics_partial g hg he p hp pf ords ho fuel m h with h' | h'
  · exact h'
  · exact absurd hh h'.1

/-- Without headroom it can: a triangle with the node `usize::MAX`, overflow checks on. -/
theorem C45_overflows (ords : List Bool → Nat → HashOrder) (ho : ∀ l i, (ords l i).Valid) (fuel : Nat) (hf : 14 ≤ fuel) :
    maximumMatching (pf64 true) fuel ords (graphOf [(0, 1), (1, 2 ^ 64 - 1), (2 ^ 64 - 1, 0)]).toI Pairing.new =
      .panic overflowMsg := by
  have h0 : maximumMatching (pf64 true) 14 (fun _ _ => id) (graphOf [(0, 1), (1, 2 ^ 64 - 1), (2 ^ 64 - 1, 0)]).toI Pairing.new =
      .panic overflowMsg := by
    decide +kernel
  have h1 := (maximumMatching_le (pf := pf64 true) (ord := id) hf _ _).eq h0 (by simp)
  have hm : Pairing.new.Matches (graphOf [(0, 1), (1, 2 ^ 64 - 1), (2 ^ 64 - 1, 0)]).toI := matches_of_test (by decide +kernel)
  rcases maximumMatching_congr (pf := pf64 true) (graphOf_lawful _) (graphOf_edges _) fuel hm hm rfl
    (ords := fun _ _ => id) (fun _ _ => HashOrder.id_valid) ho with ⟨_, _, e, -⟩ | ⟨m, e, e'⟩ | ⟨e, -⟩
  · exact absurd (h1.symm.trans e) (by simp)
  · have := h1.symm.trans e; injection this with this; subst this; exact e'
  · exact absurd (h1.symm.trans e) (by simp)

/-- And with overflow checks off, the wrapped id 0 can clash with node 0. -/
theorem C45_wraps_and_clashes (ords : List Bool → Nat → HashOrder) (ho : ∀ l i, (ords l i).Valid) (fuel : Nat)
    (hf : 14 ≤ fuel) :
    maximumMatching (pf64 false) fuel ords (graphOf [(1, 2), (2, 2 ^ 64 - 1), (2 ^ 64 - 1, 1), (1, 0)]).toI
      (pairingOf [(2, 2 ^ 64 - 1)]) = .panic "bad graph" := by
  have h0 : maximumMatching (pf64 false) 14 (fun _ _ => id) (graphOf [(1, 2), (2, 2 ^ 64 - 1), (2 ^ 64 - 1, 1), (1, 0)]).toI
      (pairingOf [(2, 2 ^ 64 - 1)]) = .panic "bad graph" := by
    decide +kernel
  have h1 := (maximumMatching_le (pf := pf64 false) (ord := id) hf _ _).eq h0 (by simp)
  have hm : (pairingOf [(2, 2 ^ 64 - 1)]).Matches (graphOf [(1, 2), (2, 2 ^ 64 - 1), (2 ^ 64 - 1, 1), (1, 0)]).toI :=
    matches_of_test (by decide +kernel)
  rcases maximumMatching_congr (pf := pf64 false) (graphOf_lawful _) (graphOf_edges _) fuel hm hm rfl
    (ords := fun _ _ => id) (fun _ _ => HashOrder.id_valid) ho with ⟨_, _, e, -⟩ | ⟨m, e, e'⟩ | ⟨e, -⟩
  · exact absurd (h1.symm.trans e) (by simp)
  · have := h1.symm.trans e; injection this with this; subst this; exact e'
  · exact absurd (h1.symm.trans e) (by simp)

example : ∀ v ∈ panicG.toI.nodes,
    v + (panicG.toI.nodes.length / 2 + panicG.toI.nodes.countP (fun u => (panicG.toI.nbr u).contains u)) ≤
      (pf64 true).usizeMax := by decide +kernel

/-! ### C46 -/

/-- **C46.** `greedy(g)` returns a valid start for `maximum_matching`: if the latter returns, the result is a maximum
matching at least as large as the greedy one. -/
theorem C46_greedy_start (g : GraphI) (hg : g.Lawful) (he : g.edges.Nodup) (hl : g.NoDoubleLoop) :
    ∃ p, GreedyReturns g p ∧ p.Matches g ∧
      ∀ (pf : Platform) (ords : List Bool → Nat → HashOrder) (fuel : Nat) (q : Pairing), (∀ l i, (ords l i).Valid) →
        maximumMatching pf fuel ords g p = .ok q → ∀ ord : HashOrder, ord.Valid →
          IsMaximum g (q.edges ord) ∧ (p.edges ord).length ≤ (q.edges ord).length := by
  obtain ⟨p, h1, h2, h3⟩ := C30_greedy_matching g hg hl
  refine ⟨p, h1, h2, fun pf ords fuel q ho h ord hord => ?_⟩
  have := C39_result_is_maximum g hg he p h2 pf ords ho fuel q h ord hord
  exact ⟨this, this.2 _ (h3 ord hord)⟩

example : tri.toI.NoDoubleLoop ∧ GreedyReturns tri.toI (pairingOf [(0, 1)]) ∧
    maximumMatching (pf64 true) 14 (fun _ _ => id) tri.toI (pairingOf [(0, 1)]) = .ok (pairingOf [(0, 1), (2, 3)]) := by
  refine ⟨?_, greedyReturns_of (N := 12) (by decide +kernel), by decide +kernel⟩
  intro v
  by_cases hv : v ∈ tri.toI.nodes
  · have h2 : tri.toI.nodes = [0, 1, 2, 3] := by decide +kernel
    rw [h2] at hv
    have key : ∀ v ∈ [0, 1, 2, 3], (tri.toI.nbr v).count v ≤ 1 := by decide +kernel
    exact key v hv
  · unfold GraphI.nbr
    rw [tri_lawful.neighbors_err v hv]
    simp

/-! ### C49 -/

/-- **C49.**  On a graph no two of whose odd cycles share a node, `maximum_matching`, started from any matching, returns
for every large enough budget, with a maximum matching in which every node that was paired is paired still. -/
theorem C49_total_where_odd_cycles_apart (g : GraphI) (hg : g.Lawful) (he : g.edges.Nodup) (hA : g.OddCyclesApart)
    (p : Pairing) (hp : p.Matches g) (pf : Platform) (hh : Headroom pf g)
    (ords : List Bool → Nat → HashOrder) (ho : ∀ l i, (ords l i).Valid) :
    ∃ N, ∀ fuel, N ≤ fuel → ∃ q, maximumMatching pf fuel ords g p = .ok q ∧ q.Matches g ∧
      (∀ x, p.hasNode x = true → q.hasNode x = true) ∧
      ∀ ord : HashOrder, ord.Valid → IsMaximum g (q.edges ord) := by
  obtain ⟨N, hN⟩ := C42_ends_odd_cycles_apart_partial g hg he hA p hp pf hh ords ho
  refine ⟨N, fun fuel hf => ?_⟩
  obtain ⟨q, h⟩ := hN fuel hf
  exact ⟨q, h, (C38_result_is_matching g hg he p hp pf ords ho fuel q h).1,
    C44_covers_odd_cycles_apart_partial g hg he hA p hp pf hh ords ho fuel q h,
    fun ord hord => C39_result_is_maximum g hg he p hp pf ords ho fuel q h ord hord⟩

/-- A graph all of whose edges join nodes of different colors, out of two, has no odd cycle, so its odd cycles are
apart. -/
theorem C49_bipartite_apart (g : GraphI) (col : Nat → Bool) (hcol : ∀ u v, g.Adj u v → col u ≠ col v) : g.OddCyclesApart :=
  fun _ _ _ _ hC => (cyclic_odd hC.cyclic hC.odd hcol).elim

/-- Together with `greedy` as a start. -/
theorem C49_greedy_then_maximum (g : GraphI) (hg : g.Lawful) (he : g.edges.Nodup) (hl : g.NoDoubleLoop) (hA : g.OddCyclesApart)
    (pf : Platform) (hh : Headroom pf g) (ords : List Bool → Nat → HashOrder) (ho : ∀ l i, (ords l i).Valid) :
    ∃ p, GreedyReturns g p ∧ ∃ N, ∀ fuel, N ≤ fuel → ∃ q, maximumMatching pf fuel ords g p = .ok q ∧
      (∀ x, p.hasNode x = true → q.hasNode x = true) ∧ ∀ ord : HashOrder, ord.Valid → IsMaximum g (q.edges ord) := by
  obtain ⟨p, h1, h2, -⟩ := C30_greedy_matching g hg hl
  obtain ⟨N, hN⟩ := C49_total_where_odd_cycles_apart g hg he hA p h2 pf hh ords ho
  exact ⟨p, h1, N, fun fuel hf => by
    obtain ⟨q, a1, -, a2, a3⟩ := hN fuel hf
    exact ⟨q, a1, a2, a3⟩⟩

/-- The hypotheses hold of the triangle with a tail, which has an odd cycle; see `tri_run` for the run. -/
example : tri.toI.Lawful ∧ tri.toI.edges.Nodup ∧ tri.toI.OddCyclesApart ∧ OddCycle tri.toI [0, 1, 2] ∧
    (pairingOf [(1, 2)]).Matches tri.toI ∧ Headroom (pf64 true) tri.toI :=
  ⟨tri_lawful, graphOf_edges _, tri_apart.1, tri_apart.2, tri_matches, headroom_of (by decide +kernel)⟩

end Gamma
