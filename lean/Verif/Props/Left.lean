import Verif.Proofs.Left
import Verif.Props.Unchecked
/-
Property C80: what `maximum_matching` leaves of the pairing, however it ends.
-/
namespace Gamma
open Pairing Blossom

/-! ### C80 -/

/-- **C80, the outcome.**  The model that also tells what is left agrees with the one that does not: the call returns exactly if
its result is `ok`, with the pairing that is left; and otherwise fails alike. -/
theorem C80_same_outcome (pf : Platform) (fuel : Nat) (ords : List Bool → Nat → HashOrder) (g : GraphI) (p : Pairing) :
    (∀ q, maximumMatching pf fuel ords g p = .ok q ↔ maximumMatchingLeft pf fuel ords g p = (q, .ok ())) ∧
    (∀ m, maximumMatching pf fuel ords g p = .panic m ↔ (maximumMatchingLeft pf fuel ords g p).2 = .panic m) ∧
    (∀ e, maximumMatching pf fuel ords g p = .err e ↔ (maximumMatchingLeft pf fuel ords g p).2 = .err e) ∧
    (maximumMatching pf fuel ords g p = .timeout ↔ (maximumMatchingLeft pf fuel ords g p).2 = .timeout) := by
  rw [maximumMatchingLeft_eq]
  rcases maximumMatchingLeft pf fuel ords g p with ⟨q, o⟩
  cases o <;> simp [Out.ofLeft]

section
variable (g : GraphI) (hg : g.Lawful) (he : g.edges.Nodup) (pf : Platform)
include hg he

/-- **C80.**  If `maximum_matching` is handed a matching, then whether it returns, panics or is stopped at any time, what is left
is a matching. -/
theorem C80_left_is_matching (p : Pairing) (hp : p.Matches g) (ords : List Bool → Nat → HashOrder) (ho : ∀ l i, (ords l i).Valid)
    (fuel : Nat) (ord : HashOrder) (hord : ord.Valid) :
    (maximumMatchingLeft pf fuel ords g p).1.Matches g ∧ IsMatching g ((maximumMatchingLeft pf fuel ords g p).1.edges ord) := by
  have h := (maximumMatchingLeft_visits (pf := pf) (g := g) fuel p ho).matches_ hg he hp
  exact ⟨h, h.isMatching hord⟩

/-- **C80, pairings that are no matchings.**  And if it is handed a symmetric pairing of nodes of `g`, a symmetric pairing of nodes
of `g` is left. -/
theorem C80_left_is_pairing (p : Pairing) (hs : p.Symmetric) (hi : ∀ v w, p.mate v = .ok w → v ∈ g.nodes)
    (ords : List Bool → Nat → HashOrder) (ho : ∀ l i, (ords l i).Valid) (fuel : Nat) :
    (maximumMatchingLeft pf fuel ords g p).1.Symmetric ∧
      ∀ v w, (maximumMatchingLeft pf fuel ords g p).1.mate v = .ok w → v ∈ g.nodes := by
  have h := (maximumMatchingLeft_visits (pf := pf) (g := g) fuel p ho).any hg he hs (inside_iff.2 hi)
  exact ⟨h.1, inside_iff.1 h.2⟩

/-- **C80, progress.**  Where no two odd cycles share a node, nothing is lost by stopping a run: every paired node is still paired. -/
theorem C80_keeps_odd_cycles_apart (hA : g.OddCyclesApart) (p : Pairing) (hp : p.Matches g) (ords : List Bool → Nat → HashOrder)
    (ho : ∀ l i, (ords l i).Valid) (fuel : Nat) :
    (∀ x, p.hasNode x = true → (maximumMatchingLeft pf fuel ords g p).1.hasNode x = true) ∧
      p.order ≤ (maximumMatchingLeft pf fuel ords g p).1.order := by
  have h : ∀ r, Visits pf g p r → (∀ x, p.hasNode x = true → r.hasNode x = true) ∧ p.order ≤ r.order := by
    intro r h
    induction h with
    | start => exact ⟨fun x h => h, le_refl _⟩
    | step r r' path hv hf ha ih =>
      have hm := (hv.matches_ hg he hp).symmetric
      have hgood := apart_good g hg he hA p hp pf r path hv hf
      refine ⟨fun x hx => (hgood.covers hm ha x).2 (.inl (ih.1 x hx)), ?_⟩
      have := hgood.order hm ha
      omega
  exact h _ (maximumMatchingLeft_visits fuel p ho)

/-- **C80, panics.**  A path is refused only if there is a larger matching than the one that is left. -/
theorem C80_refused_not_maximum (p : Pairing) (hp : p.Matches g) (hh : Headroom pf g) (ords : List Bool → Nat → HashOrder)
    (ho : ∀ l i, (ords l i).Valid) (fuel : Nat) (m : String) (q : Pairing)
    (h : maximumMatchingLeft pf fuel ords g p = (q, .panic m)) :
    ∃ M, IsMatching g M ∧ q.order < 2 * M.length := by
  obtain ⟨hv, hp1⟩ := maximumMatchingLeft_inv (I := Visits pf g p) (pf := pf) (g := g) (n := fuel) (p := p) (ords := ords)
    (fun r r' path ords k hv ho' e e' => .step r r' path hv ⟨ords, k, ho', e⟩ e') .start ho
  obtain ⟨o2, k, h1, -, h2⟩ := hp1 m (by rw [h])
  rw [h] at hv h2
  have hm := hv.matches_ hg he hp
  have hs := (augmentingPath_spec (pf := pf) h1 h1 k hg he hm hm rfl).1
  rcases h2 with e | ⟨path, e, -⟩
  · rw [e] at hs; exact absurd hh hs.1
  · rw [e] at hs; exact hs.2

/-- **C80, trying again.**  It is no use calling again with what a panic has left: the call panics likewise and changes nothing. -/
theorem C80_retry (p : Pairing) (hs : p.Symmetric) (hi : ∀ v w, p.mate v = .ok w → v ∈ g.nodes)
    (ords ords' : List Bool → Nat → HashOrder) (ho : ∀ l i, (ords l i).Valid) (ho' : ∀ l i, (ords' l i).Valid) (fuel fuel' : Nat)
    (hf : fuel ≤ fuel') (m : String) (q : Pairing) (h : maximumMatchingLeft pf fuel ords g p = (q, .panic m)) :
    maximumMatchingLeft pf fuel' ords' g q = (q, .panic m) :=
  maximumMatchingLeft_retry hg he hs (inside_iff.2 hi) ho ho' hf h

/-- **C80, hash orders.**  What is left, of equal pairings, is equal whatever order the hash maps are iterated in. -/
theorem C80_order_independent (p q : Pairing) (hp : p.Symmetric) (hq : q.Symmetric) (hi : ∀ v w, p.mate v = .ok w → v ∈ g.nodes)
    (hpq : p.eq q = true) (ords ords' : List Bool → Nat → HashOrder) (ho : ∀ l i, (ords l i).Valid)
    (ho' : ∀ l i, (ords' l i).Valid) (fuel : Nat) :
    (maximumMatchingLeft pf fuel ords g p).2 = (maximumMatchingLeft pf fuel ords' g q).2 ∧
      (maximumMatchingLeft pf fuel ords g p).1.eq (maximumMatchingLeft pf fuel ords' g q).1 = true := by
  have hget : q.get = p.get := funext (fun x => ((eq_iff hp.keys_nodup hq.keys_nodup).1 hpq x).symm)
  obtain ⟨h1, h2, -, h4, h5⟩ := maximumMatchingLeft_congr (pf := pf) hg he fuel hp (inside_iff.2 hi) hq hget ho ho'
  exact ⟨h1.symm, (eq_iff h2.keys_nodup h4.keys_nodup).2 (fun x => (congrFun h5 x).symm)⟩

end

/-! #### Examples -/

/-- A panic, and what it leaves: not nothing. -/
theorem panicG_left : ∀ b, ∃ q, maximumMatchingLeft (pf64 b) 20 (fun _ _ => _root_.id) panicG.toI Pairing.new =
    (q, .panic "even path augmentation") ∧ q.order = 4 := by
  have : ∀ b, ((maximumMatchingLeft (pf64 b) 20 (fun _ _ => _root_.id) panicG.toI Pairing.new).2 = .panic "even path augmentation") ∧
    (maximumMatchingLeft (pf64 b) 20 (fun _ _ => _root_.id) panicG.toI Pairing.new).1.order = 4 := by decide +kernel
  intro b
  exact ⟨_, Prod.ext rfl (this b).1, (this b).2⟩

/-- The hypotheses of all theorems but the one on odd cycles hold of it; that one's hold of the triangle with a tail. -/
example : panicG.toI.Lawful ∧ panicG.toI.edges.Nodup ∧ Pairing.new.Matches panicG.toI ∧ (∀ b, Headroom (pf64 b) panicG.toI) ∧
    tri.toI.Lawful ∧ tri.toI.edges.Nodup ∧ tri.toI.OddCyclesApart ∧ (pairingOf [(1, 2)]).Matches tri.toI :=
  ⟨graphOf_lawful _, graphOf_edges _, matches_of_test (by decide +kernel),
    fun b => headroom_of (by cases b <;> decide +kernel), tri_lawful, graphOf_edges _, tri_apart.1, tri_matches⟩

/-- A run that is stopped after its first augmentation. -/
example : ∀ b, maximumMatchingLeft (pf64 b) 4 (fun _ _ => _root_.id) (graphOf [(0, 1), (1, 2), (2, 3), (4, 5)]).toI .new =
    (⟨[(1, 0), (0, 1)]⟩, .timeout) := by decide +kernel

/-- A graph with 12 nodes. -/
def shrinkG : DefaultGraph := built 12
  [(6, 0), (2, 1), (6, 10), (0, 1), (6, 5), (8, 9), (1, 11), (9, 6), (3, 7), (8, 4), (11, 9), (4, 0), (3, 10), (5, 7)]
/-- A matching with five pairs. -/
def shrinkP : Pairing := pairingOf [(3, 10), (0, 4), (1, 11), (8, 9), (5, 6)]

/-- **C80, where odd cycles meet, something may be lost**: the run visits a matching that is smaller than the one it started from. -/
theorem C80_may_shrink (b : Bool) : shrinkP.Matches shrinkG.toI ∧ shrinkP.order = 10 ∧
    ∃ r, Visits (pf64 b) shrinkG.toI shrinkP r ∧ r.order = 8 := by
  refine ⟨matches_of_test (by decide +kernel), by decide +kernel, ?_⟩
  have e : ∀ b, augmentingPath (pf64 b) (fun _ => _root_.id) 20 shrinkG.toI shrinkP = .ok (some [11, 9, 6, 0, 1, 2]) := by
    decide +kernel
  have : ∃ r, shrinkP.augment [11, 9, 6, 0, 1, 2] = .ok r ∧ r.order = 8 := ⟨_, rfl, by decide +kernel⟩
  obtain ⟨r, h1, h2⟩ := this
  exact ⟨r, .step _ _ _ .start ⟨_, 20, fun _ => HashOrder.id_valid, e b⟩ h1, h2⟩

end Gamma
