import Verif.Proofs.Pairing
/-
Properties C32–C37: `Pairing`.
-/
namespace Gamma
open Pairing

/-- A pairing for the examples: 1-2, 3-4 and 5-6 paired, then 2 re-paired with 3 (which frees 1 and 4). -/
def exP : Pairing := (((Pairing.new.pair 1 2).pair 3 4).pair 5 6).pair 2 3

theorem exP_reachable : exP.Reachable :=
  .pair _ _ _ (.pair _ _ _ (.pair _ _ _ (.pair _ _ _ .new (by decide)) (by decide)) (by decide)) (by decide)

theorem exP_symmetric : exP.Symmetric := reachable_symmetric exP_reachable

/-- Reversal, as an iteration order different from the default one. -/
theorem reverse_valid : HashOrder.Valid List.reverse := fun l => l.reverse_perm

/-! ### C32 -/

/-- **C32.** After any sequence of `pair(s,t)` with `s != t` and `augment(path)` without repeated nodes, a
paired node's mate is another paired node whose mate is that node. -/
theorem C32_symmetric (p : Pairing) (hp : p.Reachable) (x : Nat) (hx : p.hasNode x = true) :
    ∃ y, p.mate x = .ok y ∧ y ≠ x ∧ p.hasNode y = true ∧ p.mate y = .ok x := by
  have h := reachable_symmetric hp
  obtain ⟨y, e⟩ := hasNode_iff.1 hx
  have e' := h.get_get e
  exact ⟨y, mate_eq_ok.2 e, (h.ne e).symm, hasNode_iff.2 ⟨x, e'⟩, mate_eq_ok.2 e'⟩

/-- The bundled form used by the other theorems. -/
theorem C32_symmetric_structure (p : Pairing) (hp : p.Reachable) : p.Symmetric := reachable_symmetric hp

/-- The restriction is needed: pairing a node with itself and then with another loses a mate. -/
theorem C32_self_pair_breaks :
    ((Pairing.new.pair 1 1).pair 1 2).hasNode 2 = true ∧ ((Pairing.new.pair 1 1).pair 1 2).mate 2 = .ok 1 ∧
    ((Pairing.new.pair 1 1).pair 1 2).mate 1 = .panic "missing node" := by decide

example : exP.Reachable ∧ exP.hasNode 3 = true ∧ exP.mate 3 = .ok 2 ∧ exP.hasNode 4 = false :=
  ⟨exP_reachable, by decide, by decide, by decide⟩

/-! ### C33 -/

/-- **C33.** `pair(s,t)` makes `s` and `t` mates, unpairs their previous mates, and changes nothing else. -/
theorem C33_pair (p : Pairing) (hp : p.Symmetric) (s t : Nat) (hne : s ≠ t) :
    (p.pair s t).mate s = .ok t ∧ (p.pair s t).mate t = .ok s ∧
    (∀ x, x ≠ s → x ≠ t → p.mate x = .ok s ∨ p.mate x = .ok t → (p.pair s t).hasNode x = false) ∧
    (∀ x, x ≠ s → x ≠ t → p.mate x ≠ .ok s → p.mate x ≠ .ok t →
      (p.pair s t).hasNode x = p.hasNode x ∧ (p.pair s t).mate x = p.mate x) ∧
    (p.pair s t).Symmetric := by
  refine ⟨?_, ?_, ?_, ?_, hp.pair hne⟩
  · rw [mate_eq_ok, hp.get_pair hne]; simp
  · rw [mate_eq_ok, hp.get_pair hne]; simp [hne.symm]
  · intro x h1 h2 h3
    rw [mate_eq_ok, mate_eq_ok] at h3
    rw [hasNode_false, hp.get_pair hne]
    simp [h1, h2, h3]
  · intro x h1 h2 h3 h4
    rw [Ne, mate_eq_ok] at h3 h4
    have : (p.pair s t).get x = p.get x := by rw [hp.get_pair hne]; simp [h1, h2, h3, h4]
    exact ⟨by rw [hasNode_eq, hasNode_eq, this], mate_eq_iff.2 this⟩

example : exP.Symmetric ∧ exP.mate 2 = .ok 3 ∧ exP.mate 6 = .ok 5 := ⟨exP_symmetric, by decide, by decide⟩

/-! ### C34 -/

/-- **C34.** In every iteration order of the map, `edges()` lists each pair exactly once, smaller node first,
no two share a node, and `order()` is twice their number. -/
theorem C34_edges (p : Pairing) (hp : p.Symmetric) (ord : HashOrder) (ho : ord.Valid) :
    (∀ a b, (a, b) ∈ p.edges ord ↔ a < b ∧ p.mate a = .ok b) ∧
    (p.edges ord).Nodup ∧
    (p.edges ord).Pairwise (fun e f => e.1 ≠ f.1 ∧ e.1 ≠ f.2 ∧ e.2 ≠ f.1 ∧ e.2 ≠ f.2) ∧
    p.order = 2 * (p.edges ord).length :=
  ⟨fun a b => by rw [mem_edges ho hp, mate_eq_ok], edges_nodup ho hp, edges_disjoint ho hp, order_eq ho hp⟩

example : exP.Symmetric ∧ HashOrder.Valid List.reverse ∧ exP.edges List.reverse = [(5, 6), (2, 3)] ∧
    exP.edges id = [(2, 3), (5, 6)] :=
  ⟨exP_symmetric, reverse_valid, by decide, by decide⟩

/-! ### C35 -/

/-- **C35.** `augment(path)` panics exactly when the path has an odd number of nodes. -/
theorem C35_augment_panics (p : Pairing) (path : List Nat) :
    (path.length % 2 = 1 → p.augment path = .panic "even path augmentation") ∧
    (path.length % 2 = 0 → ∃ q, p.augment path = .ok q) :=
  ⟨augment_odd p path, augment_even p path⟩

/-- **C35.** For a path of even length without repeated nodes: the nodes at positions `2i` and `2i+1` become
mates; a node off the path is unpaired if its mate was on the path and unaffected otherwise. -/
theorem C35_augment (p : Pairing) (hp : p.Symmetric) (path : List Nat) (hn : path.Nodup)
    (he : path.length % 2 = 0) :
    ∃ q, p.augment path = .ok q ∧ q.Symmetric ∧
      (∀ i a b, path[2 * i]? = some a → path[2 * i + 1]? = some b → q.mate a = .ok b ∧ q.mate b = .ok a) ∧
      (∀ x y, x ∉ path → y ∈ path → p.mate x = .ok y → q.hasNode x = false) ∧
      (∀ x, x ∉ path → (∀ y ∈ path, p.mate x ≠ .ok y) → q.mate x = p.mate x) := by
  obtain ⟨q, e, hq, h1, h2⟩ := augment_spec hp path hn he
  refine ⟨q, e, hq, ?_, ?_, ?_⟩
  · intro i a b ha hb
    have := h1 i a b ha hb
    exact ⟨mate_eq_ok.2 this, mate_eq_ok.2 (hq.get_get this)⟩
  · intro x y hx hy hm
    rw [mate_eq_ok] at hm
    rw [hasNode_false, h2 x hx, hm]
    simp [hy]
  · intro x hx hy
    rw [mate_eq_iff, h2 x hx]
    cases hm : p.get x with
    | none => rfl
    | some y =>
      have : y ∉ path := fun h => hy y h (mate_eq_ok.2 hm)
      simp [this]

/-- **C35.** Along an augmenting path, exactly the nodes of the path are covered in addition and the number
of pairs grows by one. -/
theorem C35_augmenting (p : Pairing) (hp : p.Symmetric) (path : List Nat) (ha : p.Augmenting path)
    (hne : path ≠ []) (ord : HashOrder) (ho : ord.Valid) :
    ∃ q, p.augment path = .ok q ∧ q.Symmetric ∧
      (∀ x, q.hasNode x = true ↔ p.hasNode x = true ∨ x ∈ path) ∧
      (∀ x, x ∉ path → q.mate x = p.mate x) ∧
      (q.edges ord).length = (p.edges ord).length + 1 := by
  obtain ⟨q, e, hq, h1, h2⟩ := augment_spec hp path ha.nodup ha.even
  refine ⟨q, e, hq, ha.covers hp e, ?_, ?_⟩
  · intro x hx
    rw [mate_eq_iff, h2 x hx]
    cases hm : p.get x with
    | none => rfl
    | some y =>
      have : y ∉ path := fun hy => hx (ha.mate_on_path hp hy (hp.get_get hm))
      simp [this]
  · have := ha.order hp hne e
    rw [order_eq ho hp, order_eq ho hq] at this
    omega

example : exP.Symmetric ∧ exP.Augmenting [1, 2, 3, 4] ∧ [1, 2, 3, 4] ≠ ([] : List Nat) ∧
    (exP.augment [1, 2, 3, 4]).bind (fun q => .ok (q.edges id)) = .ok [(3, 4), (1, 2), (5, 6)] := by
  refine ⟨exP_symmetric, ⟨by decide, by decide, by decide, by decide, ?_⟩, by decide, by decide⟩
  intro i a b ha hb
  match i with
  | 0 => simp at ha hb; subst ha hb; decide
  | i + 1 => simp at hb

/-- **C35.** Along any even, repetition-free path that contains the mates of its nodes and an unpaired node, nothing is
uncovered, exactly the nodes of the path are covered in addition, and the number of pairs grows. -/
theorem C35_improving (p : Pairing) (hp : p.Symmetric) (path : List Nat) (ha : p.Improving path)
    (ord : HashOrder) (ho : ord.Valid) :
    ∃ q, p.augment path = .ok q ∧ q.Symmetric ∧
      (∀ x, q.hasNode x = true ↔ p.hasNode x = true ∨ x ∈ path) ∧
      (∀ x, x ∉ path → q.mate x = p.mate x) ∧
      (p.edges ord).length < (q.edges ord).length := by
  obtain ⟨q, e, hq, h1, h2⟩ := augment_spec hp path ha.nodup ha.even
  refine ⟨q, e, hq, ha.covers hp e, ?_, ?_⟩
  · intro x hx
    rw [mate_eq_iff, h2 x hx]
    cases hm : p.get x with
    | none => rfl
    | some y =>
      have : y ∉ path := fun hy => hx (ha.mate_on_path hy (hp.get_get hm))
      simp [this]
  · have := ha.order hp e
    rw [order_eq ho hp, order_eq ho hq] at this
    omega

/-- An improving path that is not augmenting. -/
example : exP.Symmetric ∧ exP.Improving [2, 1, 3, 4] ∧ ¬ exP.Augmenting [2, 1, 3, 4] ∧
    (exP.augment [2, 1, 3, 4]).bind (fun q => .ok (q.edges id)) = .ok [(3, 4), (1, 2), (5, 6)] := by
  refine ⟨exP_symmetric, ⟨by decide, by decide, ?_, 1, by decide, by decide⟩, fun h => ?_, by decide⟩
  · have key : ∀ x ∈ [2, 1, 3, 4], (match exP.mate x with | .ok y => decide (y ∈ [2, 1, 3, 4]) | _ => true) = true := by
      decide
    intro x y hx e
    have := key x hx
    rw [e] at this
    simpa using this
  · have := h.first 2 rfl
    revert this; decide

/-! ### C36 -/

/-- **C36.** Two pairings are `==` exactly when they agree on every node's mate (and on which nodes have
one). -/
theorem C36_eq (p q : Pairing) (hp : p.AnyReachable) (hq : q.AnyReachable) :
    p.eq q = true ↔ ∀ x, p.hasNode x = q.hasNode x ∧ p.mate x = q.mate x := by
  rw [eq_iff (anyReachable_keys hp) (anyReachable_keys hq)]
  constructor
  · intro h x; exact ⟨by rw [hasNode_eq, hasNode_eq, h x], mate_eq_iff.2 (h x)⟩
  · intro h x; exact mate_eq_iff.1 (h x).2

/-- **C36.** `==` is an equivalence relation. -/
theorem C36_eq_equivalence (p q r : Pairing) (hp : p.AnyReachable) (hq : q.AnyReachable)
    (hr : r.AnyReachable) :
    p.eq p = true ∧ (p.eq q = true → q.eq p = true) ∧ (p.eq q = true → q.eq r = true → p.eq r = true) := by
  have kp := anyReachable_keys hp
  have kq := anyReachable_keys hq
  have kr := anyReachable_keys hr
  rw [eq_iff kp kp, eq_iff kp kq, eq_iff kq kp, eq_iff kq kr, eq_iff kp kr]
  exact ⟨fun _ => rfl, fun h x => (h x).symm, fun h h' x => (h x).trans (h' x)⟩

example : exP.AnyReachable ∧ ((Pairing.new.pair 6 5).pair 2 3).AnyReachable ∧
    exP ≠ (Pairing.new.pair 6 5).pair 2 3 ∧ exP.eq ((Pairing.new.pair 6 5).pair 2 3) = true :=
  ⟨.pair _ _ _ (.pair _ _ _ (.pair _ _ _ (.pair _ _ _ .new))), .pair _ _ _ (.pair _ _ _ .new), by decide,
    by decide⟩

/-! ### C37 -/

/-- **C37.** Whatever was done to the pairing, `mate(x)` panics exactly when `has_node(x)` is false and otherwise
returns a node. -/
theorem C37_mate_panics_iff (p : Pairing) (x : Nat) :
    (p.mate x = .panic "missing node" ↔ p.hasNode x = false) ∧ ((∃ y, p.mate x = .ok y) ↔ p.hasNode x = true) := by
  cases e : p.get x with
  | none =>
    have h1 := hasNode_false.2 e
    have h2 := mate_of_none e
    simp [h1, h2]
  | some y =>
    have h1 := hasNode_iff.2 ⟨y, e⟩
    have h2 := mate_eq_ok.2 e
    simp [h1, h2]

/-- Nothing is asked of the pairing: here a node is its own mate. -/
example : (Pairing.new.pair 1 1).mate 1 = .ok 1 ∧ (Pairing.new.pair 1 1).mate 2 = .panic "missing node" := by decide

/-- **C37.** `mate(x)` panics exactly when `has_node(x)` is false, and `has_node(x)` holds exactly when `x` is
an endpoint of some item of `edges()`, whatever the iteration order. -/
theorem C37_mate_defined (p : Pairing) (hp : p.Symmetric) (ord : HashOrder) (ho : ord.Valid) (x : Nat) :
    (p.hasNode x = false → p.mate x = .panic "missing node") ∧
    (p.hasNode x = true → ∃ y, p.mate x = .ok y) ∧
    (p.hasNode x = true ↔ ∃ e ∈ p.edges ord, e.1 = x ∨ e.2 = x) := by
  refine ⟨fun h => mate_of_none (hasNode_false.1 h), fun h => ?_, ?_⟩
  · obtain ⟨y, e⟩ := hasNode_iff.1 h; exact ⟨y, mate_eq_ok.2 e⟩
  · constructor
    · intro h
      obtain ⟨y, e⟩ := hasNode_iff.1 h
      rcases Nat.lt_or_gt_of_ne (hp.ne e) with hlt | hlt
      · exact ⟨(x, y), (mem_edges ho hp).2 ⟨hlt, e⟩, .inl rfl⟩
      · exact ⟨(y, x), (mem_edges ho hp).2 ⟨hlt, hp.get_get e⟩, .inr rfl⟩
    · rintro ⟨⟨a, b⟩, hm, h⟩
      have := ((mem_edges ho hp).1 hm).2
      rw [hasNode_iff]
      rcases h with rfl | rfl
      · exact ⟨_, this⟩
      · exact ⟨_, hp.get_get this⟩

example : exP.Symmetric ∧ HashOrder.Valid List.reverse ∧ exP.hasNode 2 = true ∧ exP.hasNode 4 = false :=
  ⟨exP_symmetric, reverse_valid, by decide, by decide⟩

end Gamma
