import Verif.Proofs.AugSpec
/-
`maximum_matching`.
-/
namespace Gamma
open Pairing Blossom

section
variable {g : GraphI} {p q : Pairing} {pf : Platform}

theorem get_eq_of_augment (hp : p.Symmetric) (hq : q.Symmetric) (hpq : p.get = q.get) {path : List Nat}
    (hn : path.Nodup) (he : path.length % 2 = 0) :
    ∃ p1 q1, p.augment path = .ok p1 ∧ q.augment path = .ok q1 ∧ p1.get = q1.get := by
  obtain ⟨p1, e1, s1, a1, b1⟩ := augment_spec hp path hn he
  obtain ⟨q1, e2, s2, a2, b2⟩ := augment_spec hq path hn he
  refine ⟨p1, q1, e1, e2, ?_⟩
  funext x
  by_cases hx : x ∈ path
  · obtain ⟨i, hi, rfl⟩ := List.getElem_of_mem hx
    rcases Nat.mod_two_eq_zero_or_one i with h0 | h0
    · have g1 : path[2 * (i / 2)]? = some path[i] := by
        rw [show 2 * (i / 2) = i by omega, List.getElem?_eq_getElem hi]
      have g2 : path[2 * (i / 2) + 1]? = some path[i + 1] := by
        rw [show 2 * (i / 2) + 1 = i + 1 by omega, List.getElem?_eq_getElem (by omega)]
      rw [a1 _ _ _ g1 g2, a2 _ _ _ g1 g2]
    · obtain ⟨j, rfl⟩ : ∃ j, i = j + 1 := ⟨i - 1, by omega⟩
      have g1 : path[2 * (j / 2)]? = some path[j] := by
        rw [show 2 * (j / 2) = j by omega, List.getElem?_eq_getElem]
      have g2 : path[2 * (j / 2) + 1]? = some path[j + 1] := by
        rw [show 2 * (j / 2) + 1 = j + 1 by omega, List.getElem?_eq_getElem hi]
      rw [s1.get_get (a1 _ _ _ g1 g2), s2.get_get (a2 _ _ _ g1 g2)]
  · rw [b1 x hx, b2 x hx, hpq]

/-- One round of the loop of `maximum_matching`. -/
theorem maximumMatching_succ (hg : g.Lawful) (he : g.edges.Nodup) (hp : p.Matches g)
    {ords : List Bool → Nat → HashOrder} (ho : ∀ l i, (ords l i).Valid) (n : Nat) :
    (maximumMatching pf (n + 1) ords g p = .ok p ∧ ∃ A c, Cert g p A c) ∨
    (∃ path p1, IsPath g path ∧ (∃ M, IsMatching g M ∧ p.order < 2 * M.length) ∧
      augmentingPath pf (ords []) n g p = .ok (some path) ∧ p.augment path = .ok p1 ∧ p1.Matches g ∧
      maximumMatching pf (n + 1) ords g p = (maximumMatching pf n (fun l => ords (false :: l)) g p1 >>= fun p2 =>
        maximumMatching pf n (fun l => ords (true :: l)) g p2)) ∨
    (maximumMatching pf (n + 1) ords g p = .panic "even path augmentation" ∧
      ∃ path, IsPath g path ∧ augmentingPath pf (ords []) n g p = .ok (some path) ∧ path.length % 2 = 1 ∧
        ∃ M, IsMatching g M ∧ p.order < 2 * M.length) ∨
    (∃ m, maximumMatching pf (n + 1) ords g p = .panic m ∧ ¬ Headroom pf g ∧
      ((m = overflowMsg ∧ pf.overflowChecks = true) ∨ (m = "bad graph" ∧ pf.overflowChecks = false))) ∨
    (maximumMatching pf (n + 1) ords g p = .timeout ∧ augmentingPath pf (ords []) n g p = .timeout ∧
      n ≤ g.nodes.length + g.depth + 1) := by
  have h := (augmentingPath_spec (pf := pf) (ho []) (ho []) n hg he hp hp rfl).1
  rw [maximumMatching]
  generalize augmentingPath pf (ords []) n g p = o at h ⊢
  match o, h with
  | .ok none, h => exact .inl ⟨rfl, h⟩
  | .ok (some path), h =>
    right
    obtain ⟨h1, h2⟩ := h
    rcases Nat.mod_two_eq_zero_or_one path.length with h0 | h0
    · left
      obtain ⟨p1, e1, m1⟩ := augment_matches hg hp h1.nodup h1.chain h0
      exact ⟨path, p1, h1, h2, rfl, e1, m1, by rw [Out.ok_bind]; simp only; rw [e1, Out.ok_bind]⟩
    · right; left
      exact ⟨by rw [Out.ok_bind]; simp only; rw [augment_odd p path h0, Out.panic_bind], path, h1, rfl, h0, h2⟩
  | .err e, h => exact h.elim
  | .panic m, h => exact .inr (.inr (.inr (.inl ⟨m, rfl, h⟩)))
  | .timeout, h => exact .inr (.inr (.inr (.inr ⟨rfl, rfl, h⟩)))

/-- What `maximum_matching` may end in. -/
theorem maximumMatching_spec (hg : g.Lawful) (he : g.edges.Nodup) (n : Nat) :
    ∀ {p : Pairing} {ords : List Bool → Nat → HashOrder}, p.Matches g → (∀ l i, (ords l i).Valid) →
    (∃ q, maximumMatching pf n ords g p = .ok q ∧ q.Matches g ∧ ∃ A c, Cert g q A c) ∨
    maximumMatching pf n ords g p = .panic "even path augmentation" ∨
    (∃ m, maximumMatching pf n ords g p = .panic m ∧ ¬ Headroom pf g ∧
      ((m = overflowMsg ∧ pf.overflowChecks = true) ∨ (m = "bad graph" ∧ pf.overflowChecks = false))) ∨
    maximumMatching pf n ords g p = .timeout := by
  induction n with
  | zero => intro p ords _ _; exact .inr (.inr (.inr rfl))
  | succ n ih =>
    intro p ords hp ho
    rcases maximumMatching_succ (pf := pf) hg he hp ho n with ⟨h1, h2⟩ | ⟨path, p1, -, -, -, -, hp1, h1⟩ | ⟨h1, -⟩ | h1 | ⟨h1, -⟩
    · exact .inl ⟨p, h1, hp, h2⟩
    · rw [h1]
      rcases ih hp1 (fun l i => ho (false :: l) i) with ⟨p2, e, hp2, -⟩ | e | ⟨m, e, h⟩ | e
      · rw [e, Out.ok_bind]
        exact ih hp2 (fun l i => ho (true :: l) i)
      · rw [e]; exact .inr (.inl rfl)
      · rw [e]; exact .inr (.inr (.inl ⟨m, rfl, h⟩))
      · rw [e]; exact .inr (.inr (.inr rfl))
    · exact .inr (.inl h1)
    · exact .inr (.inr (.inl h1))
    · exact .inr (.inr (.inr h1))

/-- The outcome does not depend on the iteration orders or on how the mates are stored. -/
theorem maximumMatching_congr (hg : g.Lawful) (he : g.edges.Nodup) (n : Nat) :
    ∀ {p q : Pairing} {ords ords' : List Bool → Nat → HashOrder}, p.Matches g → q.Matches g → p.get = q.get →
    (∀ l i, (ords l i).Valid) → (∀ l i, (ords' l i).Valid) →
    (∃ p' q', maximumMatching pf n ords g p = .ok p' ∧ maximumMatching pf n ords' g q = .ok q' ∧ p'.get = q'.get) ∨
    (∃ m, maximumMatching pf n ords g p = .panic m ∧ maximumMatching pf n ords' g q = .panic m) ∨
    (maximumMatching pf n ords g p = .timeout ∧ maximumMatching pf n ords' g q = .timeout) := by
  induction n with
  | zero => intros; exact .inr (.inr ⟨rfl, rfl⟩)
  | succ n ih =>
    intro p q ords ords' hp hq hpq ho ho'
    obtain ⟨h, heq⟩ := augmentingPath_spec (pf := pf) (ho []) (ho' []) n hg he hp hq hpq
    unfold maximumMatching
    rw [heq]
    generalize augmentingPath pf (ords []) n g p = o at h ⊢
    match o, h with
    | .ok none, h => exact .inl ⟨p, q, rfl, rfl, hpq⟩
    | .ok (some path), h =>
      obtain ⟨h1, -⟩ := h
      rw [Out.ok_bind, Out.ok_bind]
      simp only
      rcases Nat.mod_two_eq_zero_or_one path.length with h0 | h0
      · obtain ⟨p1, q1, e1, e2, e3⟩ := get_eq_of_augment hp.symmetric hq.symmetric hpq h1.nodup h0
        obtain ⟨p1', f1, m1⟩ := augment_matches hg hp h1.nodup h1.chain h0
        obtain ⟨q1', f2, m2⟩ := augment_matches hg hq h1.nodup h1.chain h0
        rw [e1] at f1; injection f1 with f1; subst f1
        rw [e2] at f2; injection f2 with f2; subst f2
        rw [e1, e2, Out.ok_bind, Out.ok_bind]
        rcases ih m1 m2 e3 (fun l i => ho (false :: l) i) (fun l i => ho' (false :: l) i) with ⟨p2, q2, a1, a2, a3⟩ | ⟨m, a1, a2⟩ | ⟨a1, a2⟩
        · have k : ∀ {r r' : Pairing} {o : List Bool → Nat → HashOrder}, r.Matches g → (∀ l i, (o l i).Valid) →
              maximumMatching pf n o g r = .ok r' → r'.Matches g := by
            intro r r' o hr ho e
            rcases maximumMatching_spec (pf := pf) hg he n hr ho with ⟨q, e', h, -⟩ | e' | ⟨m, e', -⟩ | e'
            · rw [e] at e'; injection e' with e'; subst e'; exact h
            all_goals rw [e] at e'; simp at e'
          rw [a1, a2, Out.ok_bind, Out.ok_bind]
          exact ih (k m1 (fun l i => ho (false :: l) i) a1) (k m2 (fun l i => ho' (false :: l) i) a2) a3
            (fun l i => ho (true :: l) i) (fun l i => ho' (true :: l) i)
        · rw [a1, a2]; exact .inr (.inl ⟨m, rfl, rfl⟩)
        · rw [a1, a2]; exact .inr (.inr ⟨rfl, rfl⟩)
      · rw [augment_odd p path h0, augment_odd q path h0]
        exact .inr (.inl ⟨_, rfl, rfl⟩)
    | .err e, h => exact h.elim
    | .panic m, h => exact .inr (.inl ⟨m, rfl, rfl⟩)
    | .timeout, h => exact .inr (.inr ⟨rfl, rfl⟩)

/-! ### Bipartite graphs -/

theorem cyclic_odd {B : List Nat} (hc : Cyclic g B) (ho : B.length % 2 = 1) {col : Nat → Bool}
    (hcol : ∀ u v, g.Adj u v → col u ≠ col v) : False := by
  have h := List.isChain_iff_getElem.1 hc
  have key : ∀ i (hi : i < (B ++ B).length), col (B ++ B)[i] = (col ((B ++ B)[0]'(by omega)) ^^ decide (i % 2 = 1)) := by
    intro i
    induction i with
    | zero => intro hi; simp
    | succ i ih =>
      intro hi
      have h1 := hcol _ _ (h i hi)
      rw [ih (by omega)] at h1
      rcases Nat.mod_two_eq_zero_or_one i with h0 | h0
      · have : (i + 1) % 2 = 1 := by omega
        simp only [h0, this] at h1 ⊢
        revert h1; generalize col _ = a; generalize col _ = b; revert a b; decide
      · have : (i + 1) % 2 = 0 := by omega
        simp only [h0, this] at h1 ⊢
        revert h1; generalize col _ = a; generalize col _ = b; revert a b; decide
  have hlt : B.length < (B ++ B).length := by simp; omega
  have := key B.length hlt
  have e : (B ++ B)[B.length] = (B ++ B)[0]'(by omega) := by
    rw [List.getElem_append_right (by omega), List.getElem_append_left (by omega)]
    congr 1; omega
  rw [e] at this
  simp [ho] at this

/-- On a bipartite graph, `augmenting_path` finds augmenting paths only. -/
theorem augmentingPath_bip (hg : g.Lawful) (hp : p.Matches g) {col : Nat → Bool} (hcol : ∀ u v, g.Adj u v → col u ≠ col v)
    {ords : Nat → HashOrder} (ho : ∀ i, (ords i).Valid) (n : Nat) :
    (augmentingPath pf ords n g p = .ok none ∧ ∃ A c, Cert g p A c) ∨
    (∃ path, augmentingPath pf ords n g p = .ok (some path) ∧ p.Augmenting path ∧ IsPath g path) ∨
    (augmentingPath pf ords n g p = .timeout ∧ n ≤ g.nodes.length + 1) := by
  cases n with
  | zero => exact .inr (.inr ⟨rfl, Nat.zero_le _⟩)
  | succ n =>
    rcases augmentingPath_search (pf := pf) hg hp hp.symmetric (fun _ _ => rfl) ho ho n with ⟨h1, -, h3⟩ | ⟨f, P, v, w, hE, h1, -⟩ | ⟨h1, -, h3⟩
    · exact .inl ⟨h1, h3⟩
    · rw [h1]
      have hF := hE.forest
      have hv := hE.even_v
      have hv0 : P v ≠ [] := by intro e; rw [e] at hv; simp at hv
      have hlen := hF.length_le hg v
      unfold evenPath
      rw [hF.path]
      by_cases hn : n < (P v).length
      · rw [if_pos hn, Out.timeout_bind]
        exact .inr (.inr ⟨rfl, by omega⟩)
      rw [if_neg hn, if_neg hv0, Out.ok_bind]
      simp only
      by_cases hl : (P v).getLast? = (P w).getLast?
      · obtain ⟨B, base, s, hB, hFd⟩ := hF.found hg hp hv hE.even_w hE.adj hl
        exact (cyclic_odd hFd.cyclic hFd.odd hcol).elim
      · have hl' : ((P v).getLast? == (P w).getLast?) = false := by simpa using hl
        rw [hl']
        simp only [Bool.false_eq_true, if_false]
        obtain ⟨a1, a2⟩ := hF.augmenting hg hp hv hE.even_w hE.adj hl
        exact .inr (.inl ⟨_, rfl, a1, a2⟩)
    · exact .inr (.inr ⟨h1, by omega⟩)

/-- On a bipartite graph, `maximum_matching` ends, and covers what was covered. -/
theorem maximumMatching_bip (hg : g.Lawful) {col : Nat → Bool} (hcol : ∀ u v, g.Adj u v → col u ≠ col v) (k : Nat) :
    ∀ {p : Pairing} {ords : List Bool → Nat → HashOrder} {n : Nat}, p.Matches g → (∀ l i, (ords l i).Valid) →
    g.nodes.length ≤ p.order + 2 * k + 1 → g.nodes.length + k + 3 ≤ n →
    ∃ q, maximumMatching pf n ords g p = .ok q ∧ q.Matches g ∧ (∃ A c, Cert g q A c) ∧
      ∀ x, p.hasNode x = true → q.hasNode x = true := by
  have base : ∀ {p : Pairing} {ords : List Bool → Nat → HashOrder} {n : Nat}, p.Matches g → (∀ l i, (ords l i).Valid) →
      (∃ A c, Cert g p A c) → g.nodes.length + 3 ≤ n → maximumMatching pf n ords g p = .ok p := by
    rintro p ords n hp ho ⟨A, c, hC⟩ hn
    obtain ⟨n, rfl⟩ : ∃ m, n = m + 1 := ⟨n - 1, by omega⟩
    unfold maximumMatching
    rcases augmentingPath_bip (pf := pf) hg hp hcol (ho []) n with ⟨h1, -⟩ | ⟨path, h1, h2, h3⟩ | ⟨-, h2⟩
    · rw [h1]; rfl
    · obtain ⟨M, hM, hl⟩ := larger_of_augmenting hg hp h2 h3
      have := hC.maximum hg hp hM
      omega
    · omega
  induction k with
  | zero =>
    intro p ords n hp ho hk hn
    obtain ⟨n, rfl⟩ : ∃ m, n = m + 1 := ⟨n - 1, by omega⟩
    rcases augmentingPath_bip (pf := pf) hg hp hcol (ho []) n with ⟨h1, h2⟩ | ⟨path, h1, h2, h3⟩ | ⟨-, h2⟩
    · exact ⟨p, by unfold maximumMatching; rw [h1]; rfl, hp, h2, fun _ h => h⟩
    · exfalso
      obtain ⟨p1, e1, m1⟩ := augment_matches hg hp h3.nodup h3.chain h2.even
      have := h2.order hp.symmetric h3.ne e1
      have := card_exposed hg m1
      omega
    · omega
  | succ k ih =>
    intro p ords n hp ho hk hn
    obtain ⟨n, rfl⟩ : ∃ m, n = m + 1 := ⟨n - 1, by omega⟩
    rcases augmentingPath_bip (pf := pf) hg hp hcol (ho []) n with ⟨h1, h2⟩ | ⟨path, h1, h2, h3⟩ | ⟨-, h2⟩
    · exact ⟨p, by unfold maximumMatching; rw [h1]; rfl, hp, h2, fun _ h => h⟩
    · obtain ⟨p1, e1, m1⟩ := augment_matches hg hp h3.nodup h3.chain h2.even
      have ho1 := h2.order hp.symmetric h3.ne e1
      obtain ⟨q, a1, a2, a3, a4⟩ := ih m1 (fun l i => ho (false :: l) i) (n := n) (by omega) (by omega)
      refine ⟨q, ?_, a2, a3, ?_⟩
      · unfold maximumMatching
        rw [h1, Out.ok_bind]
        simp only
        rw [e1, Out.ok_bind, a1, Out.ok_bind]
        exact base a2 (fun l i => ho (true :: l) i) a3 (by omega)
      · intro x hx
        exact a4 x ((h2.covers hp.symmetric e1 x).2 (.inl hx))
    · omega

/-! ### Runs along augmenting paths -/

theorem Finds.isPath (hg : g.Lawful) (he : g.edges.Nodup) (hp : p.Matches g) {path : List Nat} (h : Finds pf g p path) :
    IsPath g path ∧ ∃ M, IsMatching g M ∧ p.order < 2 * M.length := by
  obtain ⟨ords, n, ho, e⟩ := h
  have := (augmentingPath_spec (pf := pf) ho ho n hg he hp hp rfl).1
  rw [e] at this
  exact this

theorem Visits.matches_ (hg : g.Lawful) (he : g.edges.Nodup) (hp : p.Matches g) {r : Pairing} (h : Visits pf g p r) : r.Matches g := by
  induction h with
  | start => exact hp
  | step r r' path _ hf ha ih =>
    have hpath := (hf.isPath hg he ih).1
    rcases Nat.mod_two_eq_zero_or_one path.length with h0 | h0
    · obtain ⟨q, e, hq⟩ := augment_matches hg ih hpath.nodup hpath.chain h0
      rw [ha] at e; injection e with e; subst e; exact hq
    · rw [augment_odd _ _ h0] at ha; simp at ha

/-- If the search finds improving paths only, the run ends well. -/
theorem maximumMatching_good (hg : g.Lawful) (he : g.edges.Nodup) (hh : Headroom pf g) (p0 : Pairing) (hp0 : p0.Matches g)
    (good : ∀ r path, Visits pf g p0 r → Finds pf g r path → r.Improving path) (k : Nat) :
    ∀ {p : Pairing} {ords : List Bool → Nat → HashOrder} {n : Nat}, Visits pf g p0 p → (∀ l i, (ords l i).Valid) →
    g.nodes.length ≤ p.order + 2 * k + 1 → g.nodes.length + g.depth + k + 3 ≤ n →
    ∃ q, maximumMatching pf n ords g p = .ok q ∧ Visits pf g p0 q ∧ (∃ A c, Cert g q A c) ∧
      ∀ x, p.hasNode x = true → q.hasNode x = true := by
  have base : ∀ {p : Pairing} {ords : List Bool → Nat → HashOrder} {n : Nat}, Visits pf g p0 p → (∀ l i, (ords l i).Valid) →
      (∃ A c, Cert g p A c) → g.nodes.length + g.depth + 3 ≤ n → maximumMatching pf n ords g p = .ok p := by
    rintro p ords n hv ho ⟨A, c, hC⟩ hn
    obtain ⟨n, rfl⟩ : ∃ m, n = m + 1 := ⟨n - 1, by omega⟩
    have hp := hv.matches_ hg he hp0
    rcases maximumMatching_succ (pf := pf) hg he hp ho n with ⟨h1, h2⟩ | ⟨path, p1, -, ⟨M, hM, hl⟩, -⟩ | ⟨-, path, -, -, -, M, hM, hl⟩ | ⟨m, -, h, -⟩ | ⟨-, -, h1⟩
    · exact h1
    · have := hC.maximum hg hp hM
      omega
    · have := hC.maximum hg hp hM
      omega
    · exact absurd hh h
    · omega
  have find : ∀ {p : Pairing} {ords : List Bool → Nat → HashOrder} {n : Nat}, Visits pf g p0 p → (∀ l i, (ords l i).Valid) →
      g.nodes.length + g.depth + 3 ≤ n + 1 →
      (maximumMatching pf (n + 1) ords g p = .ok p ∧ ∃ A c, Cert g p A c) ∨
      ∃ path p1, p.Improving path ∧ IsPath g path ∧ p.augment path = .ok p1 ∧ Visits pf g p0 p1 ∧
        maximumMatching pf (n + 1) ords g p = (maximumMatching pf n (fun l => ords (false :: l)) g p1 >>= fun p2 =>
        maximumMatching pf n (fun l => ords (true :: l)) g p2) := by
    intro p ords n hv ho hn
    have hp := hv.matches_ hg he hp0
    rcases maximumMatching_succ (pf := pf) hg he hp ho n with h | ⟨path, p1, h1, -, h3, h4, -, h5⟩ | ⟨-, path, -, h3, h4, -⟩ | ⟨m, -, h, -⟩ | ⟨-, -, h1⟩
    · exact .inl h
    · have hf : Finds pf g p path := ⟨_, _, ho [], h3⟩
      exact .inr ⟨path, p1, good p path hv hf, h1, h4, .step _ _ _ hv hf h4, h5⟩
    · have hf : Finds pf g p path := ⟨_, _, ho [], h3⟩
      have := (good p path hv hf).even
      omega
    · exact absurd hh h
    · omega
  induction k with
  | zero =>
    intro p ords n hv ho hk hn
    obtain ⟨n, rfl⟩ : ∃ m, n = m + 1 := ⟨n - 1, by omega⟩
    have hp := hv.matches_ hg he hp0
    rcases find (n := n) hv ho (by omega) with ⟨h1, h2⟩ | ⟨path, p1, h2, h3, e1, hv1, -⟩
    · exact ⟨p, h1, hv, h2, fun _ h => h⟩
    · exfalso
      have := h2.order hp.symmetric e1
      have := card_exposed hg (hv1.matches_ hg he hp0)
      omega
  | succ k ih =>
    intro p ords n hv ho hk hn
    obtain ⟨n, rfl⟩ : ∃ m, n = m + 1 := ⟨n - 1, by omega⟩
    have hp := hv.matches_ hg he hp0
    rcases find (n := n) hv ho (by omega) with ⟨h1, h2⟩ | ⟨path, p1, h2, h3, e1, hv1, h4⟩
    · exact ⟨p, h1, hv, h2, fun _ h => h⟩
    · have ho1 := h2.order hp.symmetric e1
      obtain ⟨q, a1, a2, a3, a4⟩ := ih hv1 (fun l i => ho (false :: l) i) (n := n) (by omega) (by omega)
      refine ⟨q, ?_, a2, a3, ?_⟩
      · rw [h4, a1, Out.ok_bind]
        exact base a2 (fun l i => ho (true :: l) i) a3 (by omega)
      · intro x hx
        exact a4 x ((h2.covers hp.symmetric e1 x).2 (.inl hx))

/-! ### Divergence -/

/-- The search does not depend on the budget, once it ends. -/
theorem augmentingPath_stable (hg : g.Lawful) (he : g.edges.Nodup) (hp : p.Matches g) (hq : q.Matches g) (hpq : p.get = q.get)
    {N : Nat} {o : Out (Option (List Nat))} (h : augmentingPath pf (fun _ => id) N g p = o) (hN : o ≠ .timeout)
    {ords : Nat → HashOrder} (ho : ∀ i, (ords i).Valid) (n : Nat) :
    augmentingPath pf ords n g q = .timeout ∨ augmentingPath pf ords n g q = o := by
  rw [(augmentingPath_spec (pf := pf) (fun _ => HashOrder.id_valid) ho n hg he hp hq hpq).2]
  rcases Nat.le_total n N with hle | hle
  · rcases augmentingPath_le (pf := pf) (ord := id) hle g p with h1 | h1
    · exact .inl h1
    · exact .inr (by rw [← h1, h])
  · exact .inr ((augmentingPath_le (pf := pf) (ord := id) hle g p).eq h hN)

/-- A set of pairings each of which is augmented to another one of the set: the run never ends. -/
theorem maximumMatching_diverges (hg : g.Lawful) (he : g.edges.Nodup) (S : Pairing → Prop) (hS : ∀ r, S r → r.Matches g)
    (hstep : ∀ r, S r → ∃ N path r1 r2, augmentingPath pf (fun _ => id) N g r = .ok (some path) ∧
      r.augment path = .ok r1 ∧ S r2 ∧ r2.get = r1.get) (n : Nat) :
    ∀ {p : Pairing} {ords : List Bool → Nat → HashOrder}, S p → (∀ l i, (ords l i).Valid) →
      maximumMatching pf n ords g p = .timeout := by
  induction n with
  | zero => intros; rfl
  | succ n ih =>
    intro p ords hp ho
    obtain ⟨N, path, r1, r2, h1, h2, h3, h4⟩ := hstep p hp
    rw [maximumMatching]
    rcases augmentingPath_stable hg he (hS p hp) (hS p hp) rfl h1 (by simp) (ho []) n with e | e
    · rw [e]; rfl
    · rw [e, Out.ok_bind]
      simp only
      rw [h2, Out.ok_bind]
      have hr1 : r1.Matches g := Visits.matches_ (pf := pf) hg he (hS p hp)
        (.step _ _ path .start ⟨_, N, fun _ => HashOrder.id_valid, h1⟩ h2)
      rcases maximumMatching_congr (pf := pf) hg he n (hS _ h3) hr1 h4
        (ords := fun l => ords (false :: l)) (fun l i => ho _ _) (fun l i => ho (false :: l) i) with ⟨a, b, e1, -⟩ | ⟨m, e1, -⟩ | ⟨-, e2⟩
      · rw [ih h3 (fun l i => ho (false :: l) i)] at e1; simp at e1
      · rw [ih h3 (fun l i => ho (false :: l) i)] at e1; simp at e1
      · rw [e2]; rfl

end
end Gamma
