import Verif.Proofs.MaxMatching
/-
`maximum_matching` on a graph and a pairing that also holds pairs of other nodes.
-/
namespace Gamma
open Pairing Blossom

/-- `q` holds the pairs of `p` for the nodes of `g`, and perhaps pairs of other ids. -/
structure Pairing.Extends (q p : Pairing) (g : GraphI) : Prop where
  symmetric : q.Symmetric
  same : ∀ v ∈ g.nodes, q.mate v = p.mate v

section
variable {g : GraphI} {p q : Pairing} {pf : Platform}

theorem Pairing.Extends.get (h : q.Extends p g) {v : Nat} (hv : v ∈ g.nodes) : p.get v = q.get v :=
  (mate_eq_iff.1 (h.same v hv)).symm

theorem Pairing.Matches.extends (hp : p.Matches g) : p.Extends p g := ⟨hp.symmetric, fun _ _ => rfl⟩

theorem Pairing.Matches.clear (hp : p.Matches g) (hg : g.Lawful) : p.Clear g :=
  fun v _ h => .inl ⟨v, hp.mem_left hg (mate_eq_ok.1 h), Nat.le_refl _⟩

/-- The mates of the nodes of the graph are nodes of the graph, and so the others' are others. -/
theorem Pairing.Extends.mate_mem (h : q.Extends p g) (hg : g.Lawful) (hp : p.Matches g) {v w : Nat} (e : q.get v = some w) :
    v ∈ g.nodes ↔ w ∈ g.nodes := by
  constructor
  · intro hv
    rw [← h.get hv] at e
    exact hp.mem_right hg e
  · intro hw
    have e' := h.symmetric.get_get e
    rw [← h.get hw] at e'
    exact hp.mem_right hg e'

/-- The contracted pairings are related as the pairings are. -/
theorem Pairing.Extends.contract (h : q.Extends p g) (hcl : q.Clear g) {ord ord' : HashOrder} (ho' : ord'.Valid) {b : Blossom} {base : Nat}
    {g' : GraphI} {s : List Nat} (hc : Con g p b base g' (b.contractPairing ord p)) (hF : Found g p b.path base s)
    (hid : ∀ u ∈ g.nodes, u < b.id) (hid' : ∃ u ∈ g.nodes, b.id = u + 1) :
    (b.contractPairing ord' q).Extends (b.contractPairing ord p) g' ∧ (b.contractPairing ord' q).Clear g' := by
  have hg := hc.lawful
  have hp := hc.matches_
  have hd := hF.depth_lt hc
  have clear' : ∀ x y, q.get x = some y → (∃ u ∈ g.nodes, x ≤ u) ∨ ∀ u ∈ g.nodes, u + g.depth < x :=
    fun x y e => hcl x y (mate_eq_ok.2 e)
  have ne_id : ∀ x y, q.get x = some y → x ∉ b.path → x ≠ b.id := by
    intro x y e _ he
    subst he
    obtain ⟨u, hu, hu'⟩ := hid'
    rcases clear' _ _ e with ⟨w, hw, hle⟩ | hgt
    · have := hid w hw; omega
    · have := hgt u hu; omega
  have sub : ∀ x ∈ b.path, x ∈ g.nodes := hc.flower.sub
  obtain ⟨k1, k2⟩ := contractPairing_gen (b := b) (base := base) ho' h.symmetric ne_id (fun x hx hy =>
    hc.flower.base_of_out hx (fun y e => hy y (by rw [← h.get (sub x hx)]; exact e)))
  refine ⟨⟨k1, ?_⟩, ?_⟩
  · intro x hx
    rw [mate_eq_iff]
    refine Option.ext (fun y => ?_)
    rw [k2, hc.get']
    have back : ∀ a c, q.get a = some c → kap b a = x → a ∈ g.nodes := by
      intro a c e ek
      by_cases ha : a ∈ b.path
      · exact sub a ha
      · rw [kap_out ha] at ek
        subst ek
        rcases hc.mem_nodes.1 hx with h1 | h1
        · exact absurd h1 (ne_id a c e ha)
        · exact h1.1
    constructor
    · rintro ⟨hne, a, c, e, e1, e2⟩
      exact ⟨hne, a, c, by rw [h.get (back a c e e1)]; exact e, e1, e2⟩
    · rintro ⟨hne, a, c, e, e1, e2⟩
      exact ⟨hne, a, c, by rw [← h.get (hp.mem_left hg e)]; exact e, e1, e2⟩
  · intro x y e
    obtain ⟨-, a, c, e', e1, -⟩ := (k2 x y).1 (mate_eq_ok.1 e)
    by_cases ha : a ∈ b.path
    · rw [kap_in ha] at e1
      exact .inl ⟨b.id, hc.mem_nodes.2 (.inl rfl), Nat.le_of_eq e1.symm⟩
    · rw [kap_out ha] at e1
      subst e1
      rcases clear' _ _ e' with ⟨u, hu, hle⟩ | hgt
      · exact .inl ⟨b.id, hc.mem_nodes.2 (.inl rfl), by have := hid u hu; omega⟩
      · refine .inr (fun w hw => ?_)
        rcases hc.mem_nodes.1 hw with h1 | h1
        · obtain ⟨u, hu, hu'⟩ := hid'
          have := hgt u hu
          omega
        · have := hgt w h1.1
          omega

/-- The search on the larger pairing is the search on the smaller one. -/
theorem augmentingPath_outside {ords ords' : Nat → HashOrder} (ho : ∀ i, (ords i).Valid) (ho' : ∀ i, (ords' i).Valid) (n : Nat) :
    ∀ {g : GraphI} {p q : Pairing}, g.Lawful → g.edges.Nodup → p.Matches g → q.Extends p g → q.Clear g → Headroom pf g →
    augmentingPath pf ords' n g q = augmentingPath pf ords n g p := by
  induction n with
  | zero => intros; rfl
  | succ n ih =>
    intro g p q hg he hp hq hcl hh
    rcases augmentingPath_search (pf := pf) hg hp hq.symmetric (fun v hv => hq.get hv) ho ho' n with
      ⟨h1, h2, h3⟩ | ⟨f, P, v, w, hE, h1, h2⟩ | ⟨h1, h2, h3⟩
    · rw [h1, h2]
    · rw [h1, h2]
      have hF := hE.forest
      have hv := hE.even_v
      have hw := hE.even_w
      have hv0 : P v ≠ [] := by intro e; rw [e] at hv; simp at hv
      unfold evenPath
      rw [hF.path]
      by_cases hn : n < (P v).length
      · rw [if_pos hn, Out.timeout_bind, Out.timeout_bind]
      rw [if_neg hn, if_neg hv0, Out.ok_bind, Out.ok_bind]
      simp only
      by_cases hl : (P v).getLast? = (P w).getLast?
      · have hl' : ((P v).getLast? == (P w).getLast?) = true := by simpa using hl
        rw [if_pos hl', if_pos hl']
        obtain ⟨B, base, s, hB, hFd⟩ := hF.found hg hp hv hw hE.adj hl
        have hne : g.nodes ≠ [] := List.ne_nil_of_mem (hFd.flower.sub _ hFd.flower.base_mem)
        obtain ⟨mx, hmx⟩ : ∃ m, g.nodes.max? = some m := by
          cases h : g.nodes.max? with
          | none => rw [List.max?_eq_none_iff] at h; exact absurd h hne
          | some m => exact ⟨m, rfl⟩
        have hmx' := List.max?_eq_some_iff.1 hmx
        have hmaxn : maxNode g = .ok mx := by unfold maxNode; rw [hmx]
        have hfree : FreeId g ⟨mx + 1, B⟩ := by
          intro v hv _ e
          have := hmx'.2 v hv
          simp only at e
          omega
        obtain ⟨r, hr, hc⟩ := contract_ok (b := ⟨mx + 1, B⟩) (ho n) hg he hp hfree hFd.flower
        have hd := Found.depth_lt (b := ⟨mx + 1, B⟩) hc hFd
        have hid : pf.succ mx = .ok (mx + 1) := by
          have := hh mx hmx'.1
          have : mx < pf.usizeMax := by omega
          simp [Platform.succ, this]
        have hh' : Headroom pf r.toI := by
          intro v hv
          rcases hc.mem_nodes.1 hv with h1 | h1
          · have := hh mx hmx'.1
            simp only at h1
            omega
          · have := hh v h1.1
            omega
        obtain ⟨hq', hcl'⟩ := hq.contract hcl (ho' n) hc hFd (fun u hu => Nat.lt_succ_of_le (hmx'.2 u hu)) ⟨mx, hmx'.1, rfl⟩
        have := ih hc.lawful' hc.edges' hc.matches' hq' hcl' hh'
        unfold processBlossom Blossom.new
        simp only [hmaxn, Out.ok_bind, hid, hB, hr, Out.expect_ok, this]
      · have hl' : ((P v).getLast? == (P w).getLast?) = false := by simpa using hl
        rw [hl']
        simp only [Bool.false_eq_true, if_false]
    · rw [h1, h2]

/-- Augmenting along a path of nodes of the graph keeps the relation, and the other pairs. -/
theorem Pairing.Extends.augment (h : q.Extends p g) (hg : g.Lawful) (hp : p.Matches g) {path : List Nat}
    (hpath : IsPath g path) (he : path.length % 2 = 0) :
    ∃ p1 q1, p.augment path = .ok p1 ∧ q.augment path = .ok q1 ∧ p1.Matches g ∧ q1.Extends p1 g ∧
      ∀ v, v ∉ g.nodes → q1.get v = q.get v := by
  have hn := hpath.nodup
  obtain ⟨p1, e1, s1, a1, b1⟩ := augment_spec hp.symmetric path hn he
  obtain ⟨q1, e2, s2, a2, b2⟩ := augment_spec h.symmetric path hn he
  obtain ⟨p1', e1', m1⟩ := augment_matches hg hp hn hpath.chain he
  rw [e1] at e1'; injection e1' with e1'; subst e1'
  have hsub : ∀ x ∈ path, x ∈ g.nodes := hpath.mem
  have off : ∀ v, v ∉ g.nodes → q1.get v = q.get v := by
    intro v hv
    rw [b2 v (fun hc => hv (hsub v hc))]
    cases e : q.get v with
    | none => rfl
    | some w =>
      have : w ∉ path := fun hw => hv ((h.mate_mem hg hp e).2 (hsub w hw))
      simp [this]
  have on : ∀ v ∈ g.nodes, q1.get v = p1.get v := by
    intro x hxg
    by_cases hx : x ∈ path
    · obtain ⟨i, hi, rfl⟩ := List.getElem_of_mem hx
      rcases Nat.mod_two_eq_zero_or_one i with h0 | h0
      · have g1 : path[2 * (i / 2)]? = some path[i] := by
          rw [show 2 * (i / 2) = i by omega, List.getElem?_eq_getElem hi]
        have g2 : path[2 * (i / 2) + 1]? = some path[i + 1] := by
          rw [show 2 * (i / 2) + 1 = i + 1 by omega, List.getElem?_eq_getElem (by omega)]
        rw [a1 _ _ _ g1 g2, a2 _ _ _ g1 g2]
      · obtain ⟨j, rfl⟩ : ∃ j, i = j + 1 := ⟨i - 1, by omega⟩
        have g1 : path[2 * (j / 2)]? = some path[j] := by
          rw [show 2 * (j / 2) = j by omega, List.getElem?_eq_getElem]
        have g2 : path[2 * (j / 2) + 1]? = some path[j + 1] := by
          rw [show 2 * (j / 2) + 1 = j + 1 by omega, List.getElem?_eq_getElem hi]
        rw [s1.get_get (a1 _ _ _ g1 g2), s2.get_get (a2 _ _ _ g1 g2)]
    · rw [b1 x hx, b2 x hx, h.get hxg]
  exact ⟨p1, q1, e1, e2, m1, ⟨s2, fun v hv => mate_eq_iff.2 (on v hv)⟩, off⟩

theorem Pairing.Clear.of_off {q1 : Pairing} (h : q.Clear g) (off : ∀ v, v ∉ g.nodes → q1.get v = q.get v) : q1.Clear g := by
  intro v w e
  by_cases hv : v ∈ g.nodes
  · exact .inl ⟨v, hv, Nat.le_refl _⟩
  · rw [mate_eq_ok, off v hv, ← mate_eq_ok] at e
    exact h v w e

/-- On a bipartite graph, no condition on the other ids is needed. -/
theorem augmentingPath_outside_bip (hg : g.Lawful) (hp : p.Matches g) (hq : q.Extends p g) {col : Nat → Bool}
    (hcol : ∀ u v, g.Adj u v → col u ≠ col v) {ords ords' : Nat → HashOrder} (ho : ∀ i, (ords i).Valid)
    (ho' : ∀ i, (ords' i).Valid) (n : Nat) : augmentingPath pf ords' n g q = augmentingPath pf ords n g p := by
  cases n with
  | zero => rfl
  | succ n =>
    rcases augmentingPath_search (pf := pf) hg hp hq.symmetric (fun v hv => hq.get hv) ho ho' n with
      ⟨h1, h2, -⟩ | ⟨f, P, v, w, hE, h1, h2⟩ | ⟨h1, h2, -⟩
    · rw [h1, h2]
    · rw [h1, h2]
      have hF := hE.forest
      have hv := hE.even_v
      have hv0 : P v ≠ [] := by intro e; rw [e] at hv; simp at hv
      unfold evenPath
      rw [hF.path]
      by_cases hn : n < (P v).length
      · rw [if_pos hn, Out.timeout_bind, Out.timeout_bind]
      rw [if_neg hn, if_neg hv0, Out.ok_bind, Out.ok_bind]
      simp only
      by_cases hl : (P v).getLast? = (P w).getLast?
      · obtain ⟨B, base, s, hB, hFd⟩ := hF.found hg hp hv hE.even_w hE.adj hl
        exact (cyclic_odd hFd.cyclic hFd.odd hcol).elim
      · have hl' : ((P v).getLast? == (P w).getLast?) = false := by simpa using hl
        rw [hl']
        simp only [Bool.false_eq_true, if_false]
    · rw [h1, h2]

/-- `maximum_matching` on the larger pairing does to the nodes of the graph what it does on the smaller one, and nothing
to the others, if the search cannot tell the pairings apart. -/
theorem maximumMatching_outside (hg : g.Lawful) (he : g.edges.Nodup) {K : Pairing → Prop}
    (hK : ∀ q q1 : Pairing, K q → (∀ v, v ∉ g.nodes → q1.get v = q.get v) → K q1)
    (hS : ∀ (p q : Pairing) (ords ords' : Nat → HashOrder) (n : Nat), p.Matches g → q.Extends p g → K q →
      (∀ i, (ords i).Valid) → (∀ i, (ords' i).Valid) → augmentingPath pf ords' n g q = augmentingPath pf ords n g p) (n : Nat) :
    ∀ {p q : Pairing} {ords ords' : List Bool → Nat → HashOrder}, p.Matches g → q.Extends p g → K q →
    (∀ l i, (ords l i).Valid) → (∀ l i, (ords' l i).Valid) →
    (∃ p' q', maximumMatching pf n ords g p = .ok p' ∧ maximumMatching pf n ords' g q = .ok q' ∧ p'.Matches g ∧
      q'.Extends p' g ∧ ∀ v, v ∉ g.nodes → q'.get v = q.get v) ∨
    (∃ m, maximumMatching pf n ords g p = .panic m ∧ maximumMatching pf n ords' g q = .panic m) ∨
    (maximumMatching pf n ords g p = .timeout ∧ maximumMatching pf n ords' g q = .timeout) := by
  induction n with
  | zero => intros; exact .inr (.inr ⟨rfl, rfl⟩)
  | succ n ih =>
    intro p q ords ords' hp hq hk ho ho'
    have h := (augmentingPath_spec (pf := pf) (ho []) (ho []) n hg he hp hp rfl).1
    have heq := hS p q (ords []) (ords' []) n hp hq hk (ho []) (ho' [])
    unfold maximumMatching
    rw [heq]
    generalize augmentingPath pf (ords []) n g p = o at h ⊢
    match o, h with
    | .ok none, h => exact .inl ⟨p, q, rfl, rfl, hp, hq, fun _ _ => rfl⟩
    | .ok (some path), h =>
      obtain ⟨h1, -⟩ := h
      rw [Out.ok_bind, Out.ok_bind]
      simp only
      rcases Nat.mod_two_eq_zero_or_one path.length with h0 | h0
      · obtain ⟨p1, q1, e1, e2, m1, x1, o1⟩ := hq.augment hg hp h1 h0
        have k1 := hK q q1 hk o1
        rw [e1, e2, Out.ok_bind, Out.ok_bind]
        rcases ih m1 x1 k1 (fun l i => ho (false :: l) i) (fun l i => ho' (false :: l) i) with
          ⟨p2, q2, a1, a2, m2, x2, o2⟩ | ⟨m, a1, a2⟩ | ⟨a1, a2⟩
        · rw [a1, a2, Out.ok_bind, Out.ok_bind]
          rcases ih m2 x2 (hK q1 q2 k1 o2) (fun l i => ho (true :: l) i) (fun l i => ho' (true :: l) i) with
            ⟨p3, q3, b1, b2, m3, x3, o3⟩ | ⟨m, b1, b2⟩ | ⟨b1, b2⟩
          · exact .inl ⟨p3, q3, b1, b2, m3, x3, fun v hv => by rw [o3 v hv, o2 v hv, o1 v hv]⟩
          · exact .inr (.inl ⟨m, b1, b2⟩)
          · exact .inr (.inr ⟨b1, b2⟩)
        · rw [a1, a2]; exact .inr (.inl ⟨m, rfl, rfl⟩)
        · rw [a1, a2]; exact .inr (.inr ⟨rfl, rfl⟩)
      · rw [augment_odd p path h0, augment_odd q path h0]
        exact .inr (.inl ⟨_, rfl, rfl⟩)
    | .err e, h => exact h.elim
    | .panic m, h => exact .inr (.inl ⟨m, rfl, rfl⟩)
    | .timeout, h => exact .inr (.inr ⟨rfl, rfl⟩)

end

theorem Pairing.get_within (q : Pairing) (S : List Nat) (x : Nat) :
    (q.within S).get x = if x ∈ S then q.get x else none := by
  unfold Pairing.within Pairing.get HMap.get
  simp only
  induction q.pairs with
  | nil => simp
  | cons e l ih =>
    obtain ⟨k, v⟩ := e
    by_cases hk : k ∈ S
    · have : S.contains k = true := by simpa using hk
      rw [List.filter_cons_of_pos (p := fun e : Nat × Nat => S.contains e.1) (a := (k, v)) this]
      by_cases hx : x = k
      · subst hx; simp [hk]
      · have hb : (x == k) = false := by simpa using hx
        simp only [List.lookup_cons, hb]
        exact ih
    · have : ¬ (S.contains k = true) := by simpa using hk
      rw [List.filter_cons_of_neg (p := fun e : Nat × Nat => S.contains e.1) (a := (k, v)) this, ih]
      by_cases hx : x = k
      · subst hx; simp [hk]
      · have hb : (x == k) = false := by simpa using hx
        simp only [List.lookup_cons, hb]

/-- The entries for the nodes of a graph are a pairing of the graph, if they pair along its edges. -/
theorem Pairing.within_matches {g : GraphI} {q : Pairing} (hg : g.Lawful) (hs : q.Symmetric)
    (ha : ∀ v ∈ g.nodes, ∀ w, q.mate v = .ok w → g.Adj v w) : (q.within g.nodes).Matches g ∧ q.Extends (q.within g.nodes) g := by
  refine ⟨matches_of (symmetric_of ?_ ?_) ?_, hs, fun v hv => ?_⟩
  · exact (List.filter_sublist.map _).nodup hs.keys_nodup
  · intro x y e
    rw [get_within] at e
    split at e
    · rename_i hx
      have h1 := hs.mate_mate x y (mate_eq_ok.2 e)
      have h2 := hg.adj_mem _ _ (ha x hx y (mate_eq_ok.2 e))
      refine ⟨h1.1, ?_⟩
      rw [get_within, if_pos h2]
      exact mate_eq_ok.1 h1.2
    · cases e
  · intro x y e
    rw [get_within] at e
    split at e
    · rename_i hx
      exact ha x hx y (mate_eq_ok.2 e)
    · cases e
  · rw [mate_eq_iff, get_within, if_pos hv]

end Gamma
