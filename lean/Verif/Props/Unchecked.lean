import Verif.Proofs.Unchecked
import Verif.Props.Matching
/-
Property C79: `maximum_matching` with a pairing of nodes of the graph that are not all joined by edges.
-/
namespace Gamma
open Pairing Blossom

/-! ### C79 -/

/-- A list of pairs without common nodes, each an edge of `g` or a pair of `p`. -/
structure IsMixed (g : GraphI) (p : Pairing) (M : List (Nat × Nat)) : Prop where
  each : ∀ e ∈ M, e.1 ≠ e.2 ∧ (g.Adj e.1 e.2 ∨ p.mate e.1 = .ok e.2)
  disjoint : M.Pairwise (fun e f => e.1 ≠ f.1 ∧ e.1 ≠ f.2 ∧ e.2 ≠ f.1 ∧ e.2 ≠ f.2)

theorem IsMatching.mixed {g : GraphI} {p : Pairing} {M : List (Nat × Nat)} (h : IsMatching g M) : IsMixed g p M :=
  ⟨fun e he => ⟨(h.edge e he).1, .inl (h.edge e he).2⟩, h.disjoint⟩

theorem inside_iff {g : GraphI} {p : Pairing} : p.Inside g ↔ ∀ v w, p.mate v = .ok w → v ∈ g.nodes :=
  ⟨fun h v w e => h v w (mate_eq_ok.1 e), fun h v w e => h v w (mate_eq_ok.2 e)⟩

theorem isMixed_iff {g : GraphI} (hg : g.Lawful) {p : Pairing} (hi : p.Inside g) {M : List (Nat × Nat)} :
    IsMixed g p M ↔ IsMatching (g.withPairs p) M := by
  constructor
  · intro h
    exact ⟨fun e he => ⟨(h.each e he).1, (withPairs_adj hg hi).2 ((h.each e he).2.imp (fun h => h) mate_eq_ok.1)⟩, h.disjoint⟩
  · intro h
    exact ⟨fun e he => ⟨(h.edge e he).1, ((withPairs_adj hg hi).1 (h.edge e he).2).imp (fun h => h) mate_eq_ok.2⟩, h.disjoint⟩

section
variable (g : GraphI) (hg : g.Lawful) (he : g.edges.Nodup) (p : Pairing) (hs : p.Symmetric)
  (hi : ∀ v w, p.mate v = .ok w → v ∈ g.nodes) (pf : Platform)
  (ords : List Bool → Nat → HashOrder) (ho : ∀ l i, (ords l i).Valid)
include hg he hs hi ho

/-- **C79.**  Let `p` pair nodes of `g` with each other, whether joined by an edge or not.  If `maximum_matching(g, p)`
returns, `p` is again a symmetric pairing of nodes of `g`, and no choice of disjoint edges of `g` and pairs of the result
has more pairs than the result. -/
theorem C79_returns_large (fuel : Nat) (q : Pairing) (h : maximumMatching pf fuel ords g p = .ok q) :
    q.Symmetric ∧ (∀ v w, q.mate v = .ok w → v ∈ g.nodes) ∧
      ∀ ord : HashOrder, ord.Valid → ∀ M, IsMixed g q M → M.length ≤ (q.edges ord).length := by
  rcases maximumMatching_any (pf := pf) hg he fuel hs (inside_iff.2 hi) ho with ⟨q', e, s1, i1, A, c, hC⟩ | e | ⟨m, e, -⟩ | e
  · rw [h] at e; injection e with e; subst e
    refine ⟨s1, inside_iff.1 i1, fun ord hord M hM => ?_⟩
    have h1 := hC.maximum (withPairs_lawful hg s1 i1) (withPairs_matches hg s1 i1) ((isMixed_iff hg i1).1 hM)
    have h2 := order_eq hord s1
    omega
  all_goals rw [h] at e; simp at e

/-- **C79, the graph's own matchings.**  So the result has at least as many pairs as any matching of `g`; and if its pairs
all are edges, it is a maximum matching. -/
theorem C79_at_least_maximum (fuel : Nat) (q : Pairing) (h : maximumMatching pf fuel ords g p = .ok q)
    (ord : HashOrder) (hord : ord.Valid) :
    (∀ M, IsMatching g M → M.length ≤ (q.edges ord).length) ∧
      ((∀ v w, q.mate v = .ok w → g.Adj v w) → IsMaximum g (q.edges ord)) := by
  obtain ⟨s1, -, h1⟩ := C79_returns_large g hg he p hs hi pf ords ho fuel q h
  refine ⟨fun M hM => h1 ord hord M hM.mixed, fun ha => ⟨?_, fun M hM => h1 ord hord M hM.mixed⟩⟩
  exact (⟨s1, ha⟩ : q.Matches g).isMatching hord

/-- **C79, failures.**  No error is returned; a panic is the refusal of a path with an odd number of nodes, or ids have run
out. -/
theorem C79_failures (fuel : Nat) :
    (∀ e, maximumMatching pf fuel ords g p ≠ .err e) ∧
    ∀ m, maximumMatching pf fuel ords g p = .panic m → m = "even path augmentation" ∨
      (¬ Headroom pf g ∧ (m = overflowMsg ∨ m = "bad graph")) := by
  rcases maximumMatching_any (pf := pf) hg he fuel hs (inside_iff.2 hi) ho with ⟨q', e, -⟩ | e | ⟨m, e, h1, h2⟩ | e
  · rw [e]; simp
  · rw [e]
    refine ⟨by simp, fun m h => ?_⟩
    injection h with h
    exact .inl h.symm
  · rw [e]
    refine ⟨by simp, fun m' h => ?_⟩
    injection h with h
    subst h
    exact .inr ⟨h1, h2.imp (fun h => h.1) (fun h => h.1)⟩
  · rw [e]; simp

/-- **C79, what is left alone.**  A pairing that is as large as any choice of disjoint edges of `g` and pairs of its own -- one
that leaves at most one node unpaired, say -- is returned as it is. -/
theorem C79_left_alone (hmax : ∀ M, IsMixed g p M → 2 * M.length ≤ p.order) (hh : Headroom pf g) (fuel : Nat)
    (hf : g.nodes.length + g.depth + 3 ≤ fuel) : maximumMatching pf fuel ords g p = .ok p :=
  maximumMatching_stay hg he hs (inside_iff.2 hi) (fun M hM => hmax M ((isMixed_iff hg (inside_iff.2 hi)).2 hM)) hh ho hf

/-- **C79, two colours.**  If the nodes can be given two colours such that edges of `g` and pairs of `p` join different
colours, `maximum_matching` returns; it pairs along edges of `g` or as before, keeps every paired node paired, and finds at
least as many pairs as any matching of `g` has. -/
theorem C79_two_colours (col : Nat → Bool) (hcol : ∀ u v, g.Adj u v → col u ≠ col v)
    (hcolp : ∀ u v, p.mate u = .ok v → col u ≠ col v) (fuel : Nat) (hf : 2 * g.nodes.length + 3 ≤ fuel) :
    ∃ q, maximumMatching pf fuel ords g p = .ok q ∧ q.Symmetric ∧
      (∀ u v, q.mate u = .ok v → g.Adj u v ∨ p.mate u = .ok v) ∧ (∀ x, p.hasNode x = true → q.hasNode x = true) ∧
      ∀ ord : HashOrder, ord.Valid → ∀ M, IsMixed g q M → M.length ≤ (q.edges ord).length := by
  obtain ⟨q, h1, h2, h3, -, h5, h6⟩ := maximumMatching_plus_bip (pf := pf) hg he hcol g.nodes.length hs (inside_iff.2 hi)
    (fun u v e => hcolp u v (mate_eq_ok.2 e)) ho (n := fuel) (by omega) (by omega)
  refine ⟨q, h1, h2, fun u v e => (h5 u v (mate_eq_ok.1 e)).imp (fun h => h) mate_eq_ok.2, h6, ?_⟩
  exact (C79_returns_large g hg he p hs hi pf ords ho fuel q h1).2.2

end

/-- **C79, hash orders.**  Any two runs from equal pairings of nodes of the graph end the same way, with equal pairings, whatever
order the hash maps are iterated in. -/
theorem C79_order_independent (g : GraphI) (hg : g.Lawful) (he : g.edges.Nodup) (p q : Pairing) (hp : p.Symmetric)
    (hq : q.Symmetric) (hi : ∀ v w, p.mate v = .ok w → v ∈ g.nodes) (hpq : p.eq q = true) (pf : Platform)
    (ords ords' : List Bool → Nat → HashOrder) (ho : ∀ l i, (ords l i).Valid) (ho' : ∀ l i, (ords' l i).Valid) (fuel : Nat) :
    Out.SameBy (fun a b => a.eq b = true) (maximumMatching pf fuel ords g p) (maximumMatching pf fuel ords' g q) := by
  have hget : q.get = p.get := funext (fun x => ((eq_iff hp.keys_nodup hq.keys_nodup).1 hpq x).symm)
  rcases maximumMatching_congr_any (pf := pf) hg he fuel hp (inside_iff.2 hi) hq hget ho ho' with
    ⟨a, b, e1, e2, e3, -, e5, e6⟩ | ⟨m, e1, e2⟩ | ⟨e1, e2⟩
  · rw [e1, e2]
    exact (eq_iff e3.keys_nodup e5.keys_nodup).2 (fun x => (congrFun e6 x).symm)
  · rw [e1, e2]; exact rfl
  · rw [e1, e2]; exact trivial

/-! #### Examples and counterexamples -/

/-- A symmetric pairing is a matching of the graph of its own pairs. -/
theorem symmetric_of_test {p : Pairing} {es : List (Nat × Nat)} (h : matchesTest p (graphOf es).toI = true) : p.Symmetric :=
  (matches_of_test h).symmetric

theorem inside_of_test {p : Pairing} {g : GraphI} (h : p.pairs.all (fun e => g.nodes.contains e.1) = true) :
    ∀ v w, p.mate v = .ok w → v ∈ g.nodes := by
  intro v w e
  have := List.all_eq_true.1 h (v, w) (HMap.mem_of_get (mate_eq_ok.1 e))
  simpa using this

/-- Two paths 0-1-2 and 3-4-5, and the pair 1-4, which is no edge. -/
def twoPaths : DefaultGraph := graphOf [(0, 1), (1, 2), (3, 4), (4, 5)]

theorem twoPaths_run : ∀ b, maximumMatching (pf64 b) 16 (fun _ _ => id) twoPaths.toI (pairingOf [(1, 4)]) =
    .ok ⟨[(0, 1), (1, 0), (4, 3), (3, 4)]⟩ := by decide +kernel

/-- The hypotheses hold of a pairing with a pair that is no edge, and the call returns something else than it was given. -/
example : twoPaths.toI.Lawful ∧ twoPaths.toI.edges.Nodup ∧ (pairingOf [(1, 4)]).Symmetric ∧
    (∀ v w, (pairingOf [(1, 4)]).mate v = .ok w → v ∈ twoPaths.toI.nodes) ∧ ¬ twoPaths.toI.Adj 1 4 ∧
    ∀ b, ∃ q, maximumMatching (pf64 b) 16 (fun _ _ => id) twoPaths.toI (pairingOf [(1, 4)]) = .ok q ∧
      q.edges id = [(0, 1), (3, 4)] :=
  ⟨graphOf_lawful _, graphOf_edges _, symmetric_of_test (es := [(1, 4)]) (by decide +kernel), inside_of_test (by decide +kernel),
    by rw [← GraphI.mem_nbr]; decide +kernel, fun b => ⟨_, twoPaths_run b, by decide +kernel⟩⟩

/-- The two-colour case: 1, 3 and 5 get one colour, 0, 2 and 4 the other. -/
example : (∀ u v, twoPaths.toI.Adj u v → (u % 2 == 1) ≠ (v % 2 == 1)) ∧
    ∀ u v, (pairingOf [(1, 4)]).mate u = .ok v → (u % 2 == 1) ≠ (v % 2 == 1) := by
  have hn : twoPaths.toI.nodes = [0, 1, 2, 3, 4, 5] := by decide +kernel
  constructor
  · intro u v h
    have key : ∀ u ∈ [0, 1, 2, 3, 4, 5], ∀ v ∈ twoPaths.toI.nbr u, (u % 2 == 1) ≠ (v % 2 == 1) := by decide +kernel
    exact key u (hn ▸ (graphOf_lawful _).adj_src h) v (GraphI.mem_nbr.2 h)
  · intro u v h
    have key : ∀ e ∈ (pairingOf [(1, 4)]).pairs, (e.1 % 2 == 1) ≠ (e.2 % 2 == 1) := by decide +kernel
    exact key _ (HMap.mem_of_get (mate_eq_ok.1 h))

/-- What is left alone: a pairing of all nodes, whatever the edges. -/
example : ∀ b, maximumMatching (pf64 b) 16 (fun _ _ => id) twoPaths.toI (pairingOf [(0, 3), (1, 4), (2, 5)]) =
    .ok (pairingOf [(0, 3), (1, 4), (2, 5)]) := by decide +kernel

/-- The nodes 0-3, of which 0-1 and 2-3 are joined, and 4 and 5, which are not. -/
def keptG : DefaultGraph := match DefaultGraph.tryFromAdjacency [[1], [0], [3], [2], [], []] with
  | .ok g => g
  | _ => .new

/-- A run in one hash order tells all. -/
theorem all_orders {g : GraphI} (hg : g.Lawful) (he : g.edges.Nodup) {p q : Pairing} (hs : p.Symmetric)
    (hi : ∀ v w, p.mate v = .ok w → v ∈ g.nodes) {pf : Platform} {n : Nat}
    (h : maximumMatching pf n (fun _ _ => id) g p = .ok q) {ords : List Bool → Nat → HashOrder} (ho : ∀ l i, (ords l i).Valid) :
    ∃ q', maximumMatching pf n ords g p = .ok q' ∧ ∀ v, q'.mate v = q.mate v := by
  rcases maximumMatching_congr_any (pf := pf) (ords := fun _ _ => id) hg he n hs (inside_iff.2 hi) hs rfl
    (fun _ _ => HashOrder.id_valid) ho with ⟨a, b, e1, e2, -, -, -, e⟩ | ⟨m, e1, -⟩ | ⟨e1, -⟩
  · rw [h] at e1; injection e1 with e1; subst e1
    exact ⟨b, e2, fun v => mate_eq_iff.2 (congrFun e v)⟩
  · rw [h] at e1; cases e1
  · rw [h] at e1; cases e1

/-- **Non-edges may stay**: 4 and 5 are paired afterwards, as before, without an edge. -/
theorem C79_non_edges_may_stay (b : Bool) (ords : List Bool → Nat → HashOrder) (ho : ∀ l i, (ords l i).Valid) :
    (pairingOf [(4, 5)]).Symmetric ∧ (∀ v w, (pairingOf [(4, 5)]).mate v = .ok w → v ∈ keptG.toI.nodes) ∧
    ¬ keptG.toI.Adj 4 5 ∧ ∃ q, maximumMatching (pf64 b) 16 ords keptG.toI (pairingOf [(4, 5)]) = .ok q ∧
      q.mate 4 = .ok 5 ∧ q.mate 0 = .ok 1 ∧ q.mate 2 = .ok 3 := by
  have hs : (pairingOf [(4, 5)]).Symmetric := symmetric_of_test (es := [(4, 5)]) (by decide +kernel)
  have hi : ∀ v w, (pairingOf [(4, 5)]).mate v = .ok w → v ∈ keptG.toI.nodes := inside_of_test (by decide +kernel)
  have hr : keptG.Reachable := .fromAdjacency [[1], [0], [3], [2], [], []] _ (by rfl)
  obtain ⟨q, h1, h2⟩ := all_orders hr.lawful hr.loopExact.nodup hs hi (pf := pf64 b) (n := 16) (q := pairingOf [(4, 5), (0, 1), (2, 3)])
    (by revert b; decide +kernel) ho
  exact ⟨hs, hi, by rw [← GraphI.mem_nbr]; decide +kernel, q, h1, by rw [h2]; decide +kernel, by rw [h2]; decide +kernel,
    by rw [h2]; decide +kernel⟩

/-- The nodes 0, 1, ... and then edges, added one by one. -/
def built (n : Nat) (es : List (Nat × Nat)) : DefaultGraph :=
  es.foldl (fun g e => (g.addEdge e.1 e.2).1) ((List.range n).foldl (fun g v => (g.addNode v).1) .new)

theorem built_reachable (n : Nat) (es : List (Nat × Nat)) : (built n es).Reachable := by
  have h1 : ∀ (l : List Nat) (g : DefaultGraph), g.Reachable → (l.foldl (fun g v => (g.addNode v).1) g).Reachable := by
    intro l
    induction l with
    | nil => exact fun g h => h
    | cons v l ih => exact fun g h => ih _ (.addNode _ _ h)
  have h2 : ∀ (l : List (Nat × Nat)) (g : DefaultGraph), g.Reachable → (l.foldl (fun g e => (g.addEdge e.1 e.2).1) g).Reachable := by
    intro l
    induction l with
    | nil => exact fun g h => h
    | cons v l ih => exact fun g h => ih _ (.addEdge _ _ _ h)
  exact h2 es _ (h1 _ _ .new)

/-- A graph with ten nodes. -/
def inventG : DefaultGraph := built 10
  [(6, 4), (1, 7), (5, 7), (8, 7), (1, 8), (4, 8), (9, 3), (8, 0), (6, 0), (2, 0), (1, 5), (1, 0), (3, 2), (6, 2)]

/-- **New non-edges may appear** (where there are odd cycles): 5 and 6 are paired afterwards, though they are neither joined
by an edge nor were they paired before. -/
theorem C79_non_edges_may_appear (b : Bool) (ords : List Bool → Nat → HashOrder) (ho : ∀ l i, (ords l i).Valid) :
    (pairingOf [(6, 1)]).Symmetric ∧ (∀ v w, (pairingOf [(6, 1)]).mate v = .ok w → v ∈ inventG.toI.nodes) ∧
    ¬ inventG.toI.Adj 5 6 ∧ ∃ q, maximumMatching (pf64 b) 30 ords inventG.toI (pairingOf [(6, 1)]) = .ok q ∧
      q.mate 5 = .ok 6 ∧ (pairingOf [(6, 1)]).hasNode 5 = false := by
  have hs : (pairingOf [(6, 1)]).Symmetric := symmetric_of_test (es := [(6, 1)]) (by decide +kernel)
  have hi : ∀ v w, (pairingOf [(6, 1)]).mate v = .ok w → v ∈ inventG.toI.nodes := inside_of_test (by decide +kernel)
  have hr : inventG.Reachable := built_reachable _ _
  refine ⟨hs, hi, by rw [← GraphI.mem_nbr]; decide +kernel, ?_⟩
  have key : ∀ b, (match maximumMatching (pf64 b) 30 (fun _ _ => id) inventG.toI (pairingOf [(6, 1)]) with
    | .ok q => decide (q.mate 5 = .ok 6)
    | _ => false) = true := by decide +kernel
  have := key b
  split at this
  · rename_i q e
    obtain ⟨q', h1, h2⟩ := all_orders hr.lawful hr.loopExact.nodup hs hi e ho
    exact ⟨q', h1, by rw [h2]; simpa using this, by decide +kernel⟩
  · cases this

/-- Looking for a node that is not there. -/
theorem rotateToHead_hangs {g : GraphI} {sid : Nat} (n : Nat) : ∀ {B : List Nat}, B ≠ [] → (∀ x ∈ B, g.hasEdge sid x = .ok false) →
    rotateToHead g sid n B = .timeout := by
  induction n with
  | zero => intros; rfl
  | succ n ih =>
    intro B hne h
    obtain ⟨c, l, rfl⟩ := List.exists_cons_of_ne_nil hne
    have hp := (rotateRight1_rot (c :: l)).perm
    rw [rotateToHead, show vecIndex (c :: l) 0 = .ok c from rfl, Out.ok_bind, h c (by simp), Out.expect_ok, Out.ok_bind]
    exact ih (by intro e; rw [e] at hp; simpa using hp.length_eq) (fun x hx => h x (hp.mem_iff.1 hx))

/-- A tree with 8 nodes, -/
def hangG : DefaultGraph := graphOf [(0,2),(3,1),(5,4),(4,2),(7,6),(4,7)]
/-- and a pairing of six of them, of which no pair is an edge. -/
def hangP : Pairing := pairingOf [(5,7),(0,4),(2,1)]

def hM0 : Marker := match (hangP.edges _root_.id).foldlM (fun m e => m.markEdge e.1 e.2) Marker.new with | .ok m => m | _ => Marker.new
def hF0 : Forest := match [3, 6].foldlM (fun f v => Forest.addRoot f v) Forest.new with | .ok f => f | _ => Forest.new
def hStep (v : Nat) (s : Forest × Marker) : Forest × Marker :=
  match apInner (pf64 true) _root_.id 19 (fun _ _ => .timeout) hangG.toI hangP v 19 s.1 s.2 with
  | .ok (.fall s) => s
  | _ => s
def hMark (v : Nat) (s : Forest × Marker) : Marker := match s.2.markNode v with | .ok m => m | _ => s.2
def hS1 := hStep 3 (hF0, hM0)
def hM1 := hMark 3 hS1
def hS2 := hStep 6 (hS1.1, hM1)
def hM2 := hMark 6 hS2
def hF2 : Forest := match hS2.1.addEdge 2 0 with | .ok f => (match f.addEdge 0 4 with | .ok f => f | _ => f) | _ => hS2.1
def hCon : DefaultGraph := match (⟨8, [2,0,4]⟩ : Blossom).contractGraph hangG.toI with | .ok f => f | _ => .new
section
variable (b : Bool) (rec : GraphI → Pairing → Out (Option (List Nat))) (k : Nat)
theorem hang_h1 : apInner (pf64 b) _root_.id (k + 19) rec hangG.toI hangP 3 (k + 19) hF0 hM0 = .ok (.fall hS1) := by rfl
theorem hang_h2 : apInner (pf64 b) _root_.id (k + 19) rec hangG.toI hangP 6 (k + 19) hS1.1 hM1 = .ok (.fall hS2) := by rfl
theorem hang_h3 : apInner (pf64 b) _root_.id (k + 19) rec hangG.toI hangP 2 (k + 19) hS2.1 hM2 = 
  evenPath (pf64 b) _root_.id (k + 19) rec 2 [4,0,2,1,3] hangG.toI hF2 hangP >>= fun r => .ok (.ret r) := by rfl
theorem hang_h4 : evenPath (pf64 b) _root_.id (k + 19) rec 2 [4,0,2,1,3] hangG.toI hF2 hangP =
  processBlossom (pf64 b) _root_.id (k + 19) rec [2,1,3] [4,0,2,1,3] hangG.toI hangP := by rfl
theorem hang_h5 : processBlossom (pf64 b) _root_.id (k + 19) rec [2,1,3] [4,0,2,1,3] hangG.toI hangP =
   rec hCon.toI ((⟨8, [2,0,4]⟩ : Blossom).contractPairing _root_.id hangP) >>= fun r =>
            match r with
            | some path => (⟨8, [2,0,4]⟩ : Blossom).lift (k+19) path hangG.toI >>= fun lifted => .ok (some lifted)
            | none => .ok none := by rfl
theorem hang_h6 : augmentingPath (pf64 b) (fun _ => _root_.id) (k + 19) hCon.toI ((⟨8, [2,0,4]⟩ : Blossom).contractPairing _root_.id hangP) =
   .ok (some [3, 1, 8, 5, 7, 6]) := by rfl

theorem hang_h7 : (⟨8, [2,0,4]⟩ : Blossom).lift (k+19) [3, 1, 8, 5, 7, 6] hangG.toI = .timeout := by
  have : (⟨8, [2,0,4]⟩ : Blossom).lift (k+19) [3, 1, 8, 5, 7, 6] hangG.toI =
    (⟨8, [2,0,4]⟩ : Blossom).liftLeftBlossomRight (k+19) [3, 1] [5, 7, 6] hangG.toI := by rfl
  rw [this, liftLeftBlossomRight, show [3, 1].getLast? = some 1 from rfl, show vecIndex [5, 7, 6] 0 = .ok 5 from rfl]
  simp only [Out.ok_bind]
  rw [liftThrough, rotateToHead_hangs _ (by simp) (by decide +kernel)]
  rfl
theorem hang_h8 : augmentingPath (pf64 b) (fun _ => _root_.id) (k + 20) hangG.toI hangP = .timeout := by
  rw [augmentingPath, show (hangP.edges _root_.id).foldlM (fun m e => m.markEdge e.1 e.2) Marker.new = .ok hM0 by decide +kernel,
    Out.ok_bind, show (hangG.toI.nodes.filter (fun v => !hangP.hasNode v)).foldlM (fun f v => f.addRoot v) Forest.new = .ok hF0 by decide +kernel,
    Out.ok_bind, apOuter, show someV hF0 hM0 = .ok (some 3) by decide +kernel, Out.ok_bind]
  simp only
  rw [hang_h1, Out.ok_bind]
  simp only
  rw [show hS1.2.markNode 3 = .ok hM1 by decide +kernel, Out.ok_bind, apOuter, show someV hS1.1 hM1 = .ok (some 6) by decide +kernel, Out.ok_bind]
  simp only
  rw [hang_h2, Out.ok_bind]
  simp only
  rw [show hS2.2.markNode 6 = .ok hM2 by decide +kernel, Out.ok_bind, apOuter, show someV hS2.1 hM2 = .ok (some 2) by decide +kernel, Out.ok_bind]
  simp only
  rw [hang_h3, hang_h4, hang_h5, hang_h6, Out.ok_bind]
  simp only
  rw [hang_h7]
  rfl
theorem hang_id (n : Nat) : maximumMatching (pf64 b) n (fun _ _ => _root_.id) hangG.toI hangP = .timeout := by
  by_cases hn : n < 21
  · have : ∀ b, ∀ n < 21, maximumMatching (pf64 b) n (fun _ _ => _root_.id) hangG.toI hangP = .timeout := by decide +kernel
    exact this b n hn
  · obtain ⟨k, rfl⟩ : ∃ k, n = k + 20 + 1 := ⟨n - 21, by omega⟩
    rw [maximumMatching, hang_h8]; rfl
end

theorem hang_symm : hangP.Symmetric := symmetric_of_test (es := [(5, 7), (0, 4), (2, 1)]) (by decide +kernel)
theorem hang_inside : ∀ v w, hangP.mate v = .ok w → v ∈ hangG.toI.nodes := inside_of_test (by decide +kernel)

/-- **It may go on for ever**, though the graph has no cycle at all, and whatever order the hash maps are iterated in: lifting
a path out of a blossom that a non-edge closes looks for ever for a node that a non-edge leads to. -/
theorem C79_may_hang (b : Bool) (ords : List Bool → Nat → HashOrder) (ho : ∀ l i, (ords l i).Valid) (n : Nat) :
    maximumMatching (pf64 b) n ords hangG.toI hangP = .timeout := by
  rcases maximumMatching_congr_any (pf := pf64 b) (g := hangG.toI) (ords := fun _ _ => _root_.id) (graphOf_lawful _) (graphOf_edges _) n hang_symm
    (inside_iff.2 hang_inside) hang_symm rfl (fun _ _ => HashOrder.id_valid) ho with ⟨a, b', e1, -⟩ | ⟨m, e1, -⟩ | ⟨-, e2⟩
  · rw [hang_id b n] at e1; cases e1
  · rw [hang_id b n] at e1; cases e1
  · exact e2

example : hangG.toI.Lawful ∧ hangG.toI.edges.Nodup ∧ hangP.Symmetric ∧ (∀ v w, hangP.mate v = .ok w → v ∈ hangG.toI.nodes) :=
  ⟨graphOf_lawful _, graphOf_edges _, symmetric_of_test (es := [(5, 7), (0, 4), (2, 1)]) (by decide +kernel),
    inside_of_test (by decide +kernel)⟩

end Gamma
