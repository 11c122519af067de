import Mathlib.Data.Fintype.Perm
import Mathlib.Combinatorics.Pigeonhole
import Mathlib.Data.Fintype.Pigeonhole
import Verif.Proofs.Touch
import Verif.Proofs.Cost
/-
Runs of `maximum_matching` that never end.
-/
namespace Gamma
open Pairing Blossom

section
variable {g : GraphI} {p q r : Pairing} {pf : Platform}

theorem Finds.ident (hg : g.Lawful) (he : g.edges.Nodup) (hp : p.Matches g) (hq : q.Matches g) (hpq : p.get = q.get)
    {path : List Nat} (h : Finds pf g p path) : ∃ N, augmentingPath pf (fun _ => _root_.id) N g q = .ok (some path) := by
  obtain ⟨ords, n, ho, e⟩ := h
  exact ⟨n, by rw [(augmentingPath_spec (pf := pf) ho (fun _ => HashOrder.id_valid) n hg he hp hq hpq).2]; exact e⟩

theorem Finds.unique (hg : g.Lawful) (he : g.edges.Nodup) (hp : p.Matches g) (hq : q.Matches g) (hpq : p.get = q.get)
    {path path' : List Nat} (h : Finds pf g p path) (h' : Finds pf g q path') : path = path' := by
  obtain ⟨N, e⟩ := h.ident hg he hp hp rfl
  obtain ⟨ords, n, ho, e'⟩ := h'
  rcases augmentingPath_stable hg he hp hq hpq e (by simp) ho n with h | h
  · rw [e'] at h; cases h
  · rw [e'] at h; injection h with h; injection h with h; exact h.symm

theorem Leads.visits {k : Nat} {r r' : Pairing} (h : Leads pf g k r r') : ∀ {p}, Visits pf g p r → Visits pf g p r' := by
  induction h with
  | none r => intro p h; exact h
  | round k r r1 r' path hf ha _ ih => intro p h; exact ih (.step _ _ _ h hf ha)

theorem Leads.matches_ (hg : g.Lawful) (he : g.edges.Nodup) {k : Nat} {r r' : Pairing} (h : Leads pf g k r r') (hr : r.Matches g) :
    r'.Matches g := (h.visits .start).matches_ hg he hr

theorem Leads.snoc {k : Nat} {r r' r2 : Pairing} {path : List Nat} (h : Leads pf g k r r') (hf : Finds pf g r' path)
    (ha : r'.augment path = .ok r2) : Leads pf g (k + 1) r r2 := by
  induction h with
  | none r => exact .round _ _ _ _ _ hf ha (.none _)
  | round k r r1 r' path' hf' ha' _ ih => exact .round _ _ _ _ _ hf' ha' (ih hf ha)

theorem Leads.split {i k : Nat} (hik : i ≤ k) {r r' : Pairing} (h : Leads pf g k r r') : ∃ s, Leads pf g i r s ∧ Leads pf g (k - i) s r' := by
  induction h generalizing i with
  | none r => obtain rfl : i = 0 := by omega
              exact ⟨r, .none _, .none _⟩
  | round k r r1 r' path hf ha h ih =>
    cases i with
    | zero => exact ⟨r, .none _, .round _ _ _ _ _ hf ha h⟩
    | succ i =>
      obtain ⟨s, h1, h2⟩ := ih (i := i) (by omega)
      exact ⟨s, .round _ _ _ _ _ hf ha h1, by rw [show k + 1 - (i + 1) = k - i by omega]; exact h2⟩

/-- Going in circles, a run never ends. -/
theorem diverges_of_circle (hg : g.Lawful) (he : g.edges.Nodup) (hp : p.Matches g) {j k : Nat} {r r' : Pairing} (hk : 0 < k)
    (h1 : Leads pf g j p r) (h2 : Leads pf g k r r') (h3 : r'.get = r.get) {ords : List Bool → Nat → HashOrder}
    (ho : ∀ l i, (ords l i).Valid) (fuel : Nat) : maximumMatching pf fuel ords g p = .timeout := by
  refine maximumMatching_diverges hg he
    (fun s => s.Matches g ∧ ∃ j k r r', 0 < k ∧ Leads pf g j s r ∧ Leads pf g k r r' ∧ r'.get = r.get) (fun r h => h.1) ?_ fuel
    ⟨hp, j, k, r, r', hk, h1, h2, h3⟩ ho
  rintro s ⟨hs, j, k, r, r', hk, h1, h2, h3⟩
  cases h1 with
  | round j _ s1 _ path hf ha h1 =>
    obtain ⟨N, e⟩ := hf.ident hg he hs hs rfl
    exact ⟨N, path, s1, s1, e, ha, ⟨(Leads.round _ _ _ _ _ hf ha (.none _)).matches_ hg he hs, j, k, r, r', hk, h1, h2, h3⟩, rfl⟩
  | none =>
    cases h2 with
    | none => omega
    | round k _ s1 _ path hf ha h2 =>
      obtain ⟨N, e⟩ := hf.ident hg he hs hs rfl
      have hs1 := (Leads.round _ _ _ _ _ hf ha (.none _)).matches_ hg he hs
      have hr' := h2.matches_ hg he hs1
      obtain ⟨N', e'⟩ := hf.ident hg he hs hr' h3.symm
      have hpath := (hf.isPath hg he hs).1
      have hev : path.length % 2 = 0 := by
        rcases Nat.mod_two_eq_zero_or_one path.length with h0 | h0
        · exact h0
        · rw [augment_odd _ _ h0] at ha; cases ha
      obtain ⟨a, b, ea, eb, hab⟩ := get_eq_of_augment hs.symmetric hr'.symmetric h3.symm hpath.nodup hev
      rw [ha] at ea; injection ea with ea; subst ea
      have hf' : Finds pf g r' path := ⟨_, N', fun _ => HashOrder.id_valid, e'⟩
      exact ⟨N, path, s1, s1, e, ha, ⟨hs1, 0, k + 1, s1, b, by omega, .none _, h2.snoc hf' eb, hab.symm⟩, rfl⟩

/-- A maximum matching is left as it is. -/
theorem maximumMatching_cert (hg : g.Lawful) (he : g.edges.Nodup) (hp : p.Matches g) (hC : ∃ A c, Cert g p A c) {n : Nat}
    (hn : g.nodes.length + g.depth + 3 ≤ n) {ords : List Bool → Nat → HashOrder} (ho : ∀ l i, (ords l i).Valid) :
    maximumMatching pf n ords g p ≠ .timeout := by
  obtain ⟨A, c, hC⟩ := hC
  obtain ⟨n, rfl⟩ : ∃ m, n = m + 1 := ⟨n - 1, by omega⟩
  rcases maximumMatching_succ (pf := pf) hg he hp ho n with ⟨h1, h2⟩ | ⟨path, p1, -, ⟨M, hM, hl⟩, -⟩ | ⟨-, path, -, -, -, M, hM, hl⟩ | ⟨m, h, -⟩ | ⟨-, -, h1⟩
  · rw [h1]; simp
  · have := hC.maximum hg hp hM; omega
  · have := hC.maximum hg hp hM; omega
  · rw [h]; simp
  · omega

/-- A run that does not end soon makes many rounds. -/
theorem leads_of_timeout (hg : g.Lawful) (he : g.edges.Nodup) (k : Nat) : ∀ {p : Pairing} {ords : List Bool → Nat → HashOrder} {n : Nat},
    p.Matches g → (∀ l i, (ords l i).Valid) → g.nodes.length + g.depth + k + 2 ≤ n → maximumMatching pf n ords g p = .timeout →
    ∃ r, Leads pf g k p r := by
  induction k with
  | zero => intro p _ _ _ _ _ _; exact ⟨p, .none _⟩
  | succ k ih =>
    intro p ords n hp ho hn h
    obtain ⟨n, rfl⟩ : ∃ m, n = m + 1 := ⟨n - 1, by omega⟩
    rcases maximumMatching_succ (pf := pf) hg he hp ho n with ⟨h1, -⟩ | ⟨path, p1, -, -, hf, ha, hp1, h1⟩ | ⟨h1, -⟩ | ⟨m, h1, -⟩ | ⟨-, -, h1⟩
    · rw [h] at h1; cases h1
    · have hf' : Finds pf g p path := ⟨_, _, ho [], hf⟩
      rw [h1] at h
      rcases maximumMatching_spec (pf := pf) hg he n hp1 (fun l i => ho (false :: l) i) with ⟨p2, e, hp2, hC⟩ | e | ⟨m, e, -⟩ | e
      · rw [e, Out.ok_bind] at h
        cases k with
        | zero => exact ⟨p1, .round _ _ _ _ _ hf' ha (.none _)⟩
        | succ k => exact absurd h (maximumMatching_cert hg he hp2 hC (by omega) (fun l i => ho (true :: l) i))
      · rw [e] at h; cases h
      · rw [e] at h; cases h
      · obtain ⟨r, hr⟩ := ih hp1 (fun l i => ho (false :: l) i) (by omega) e
        exact ⟨r, .round _ _ _ _ _ hf' ha hr⟩
    · rw [h] at h1; cases h1
    · rw [h] at h1; cases h1
    · omega

/-- A matching as a permutation of the nodes: each node goes to its mate, or stays. -/
noncomputable def permOf (g : GraphI) (hg : g.Lawful) (p : Pairing) (hp : p.Matches g) : Equiv.Perm {x // x ∈ g.nodes} :=
  Function.Involutive.toPerm (fun x => match h : p.get x.1 with
    | .none => x
    | some y => ⟨y, hp.mem_right hg h⟩) (by
    intro x
    dsimp only
    split
    · rename_i h
      split at h
      · rename_i h'; simp [h']
      · rename_i y hy
        have := hp.symmetric.get_get hy
        simp at h
        rw [this] at h; cases h
    · rename_i z h
      split at h
      · rename_i h'; rw [h'] at h; cases h
      · rename_i y hy
        have := hp.symmetric.get_get hy
        simp at h
        rw [this] at h; injection h with h
        exact Subtype.ext h.symm)

theorem permOf_apply (hg : g.Lawful) (hp : p.Matches g) (x : {x // x ∈ g.nodes}) :
    (permOf g hg p hp x).1 = (p.get x.1).getD x.1 := by
  show (match h : p.get x.1 with
    | .none => x
    | some y => (⟨y, hp.mem_right hg h⟩ : {x // x ∈ g.nodes})).1 = _
  split
  · rename_i h; simp [h]
  · rename_i y h; simp [h]

theorem permOf_inj (hg : g.Lawful) (hp : p.Matches g) (hq : q.Matches g) (h : permOf g hg p hp = permOf g hg q hq) : p.get = q.get := by
  funext x
  by_cases hx : x ∈ g.nodes
  · have h1 := permOf_apply hg hp ⟨x, hx⟩
    have h2 := permOf_apply hg hq ⟨x, hx⟩
    rw [h, h2] at h1
    simp only at h1
    cases e1 : p.get x with
    | none =>
      cases e2 : q.get x with
      | none => rfl
      | some z => rw [e1, e2] at h1; simp at h1; exact absurd h1.symm (hq.symmetric.ne e2)
    | some y =>
      cases e2 : q.get x with
      | none => rw [e1, e2] at h1; simp at h1; exact absurd h1 (hp.symmetric.ne e1)
      | some z => rw [e1, e2] at h1; simp at h1; rw [h1]
  · have none_of : ∀ {r : Pairing}, r.Matches g → r.get x = none := by
      intro r hr
      cases e : r.get x with
      | none => rfl
      | some y => exact absurd (hr.mem_left hg e) hx
    rw [none_of hp, none_of hq]

/-- A run of as many rounds as there are permutations of the nodes goes in circles. -/
theorem circle_of_leads (hg : g.Lawful) (he : g.edges.Nodup) (hp : p.Matches g) {r : Pairing}
    (h : Leads pf g g.nodes.length.factorial p r) :
    ∃ j k s s', 0 < k ∧ j + k ≤ g.nodes.length.factorial ∧ Leads pf g j p s ∧ Leads pf g k s s' ∧ s'.get = s.get := by
  classical
  have key : ∀ i : Fin (g.nodes.length.factorial + 1), ∃ s, Leads pf g i.1 p s ∧ Leads pf g (g.nodes.length.factorial - i.1) s r := fun i =>
    h.split (by omega)
  choose f hf1 hf2 using key
  have hcard : Fintype.card (Equiv.Perm {x // x ∈ g.nodes}) = g.nodes.length.factorial := by
    rw [Fintype.card_perm]
    congr 1
    rw [Fintype.card_of_subtype g.nodes.toFinset (by simp), List.toFinset_card_of_nodup hg.nodes_nodup]
  obtain ⟨a, b, hab, e⟩ := Fintype.exists_ne_map_eq_of_card_lt
    (fun i : Fin (g.nodes.length.factorial + 1) => permOf g hg (f i) ((hf1 i).matches_ hg he hp)) (by rw [hcard]; simp)
  have main : ∀ a b : Fin (g.nodes.length.factorial + 1), a.1 < b.1 → (f a).get = (f b).get →
      ∃ j k s s', 0 < k ∧ j + k ≤ g.nodes.length.factorial ∧ Leads pf g j p s ∧ Leads pf g k s s' ∧ s'.get = s.get := by
    intro a b hlt e
    obtain ⟨s, h1, h2⟩ := (hf2 a).split (i := b.1 - a.1) (by omega)
    have hs := (h1.matches_ hg he ((hf1 a).matches_ hg he hp))
    refine ⟨a.1, b.1 - a.1, f a, s, by omega, by omega, hf1 a, h1, ?_⟩
    -- the run is determined: `s` is where `b` rounds lead
    have det : ∀ {k : Nat} {r s t : Pairing}, r.Matches g → Leads pf g k r s → Leads pf g k r t → s = t := by
      intro k
      induction k with
      | zero => intro r s t _ h1 h2; cases h1; cases h2; rfl
      | succ k ih =>
        intro r s t hr h1 h2
        cases h1 with
        | round _ _ r1 _ path hf ha h1 =>
        cases h2 with
        | round _ _ r2 _ path' hf' ha' h2 =>
          have := hf.unique hg he hr hr rfl hf'
          subst this
          rw [ha] at ha'; injection ha' with ha'; subst ha'
          exact ih ((Leads.round _ _ _ _ _ hf ha (.none _)).matches_ hg he hr) h1 h2
    have append : ∀ {i k : Nat} {r s t : Pairing}, Leads pf g i r s → Leads pf g k s t → Leads pf g (i + k) r t := by
      intro i k r s t h1
      induction h1 with
      | none r => intro h2; simpa using h2
      | round i r r1 s path hf ha _ ih => intro h2; rw [show i + 1 + k = (i + k) + 1 by omega]; exact .round _ _ _ _ _ hf ha (ih h2)
    have hb : Leads pf g b.1 p s := by have := append (hf1 a) h1; rwa [show a.1 + (b.1 - a.1) = b.1 by omega] at this
    rw [det hp hb (hf1 b), e]
  have e' := permOf_inj hg ((hf1 a).matches_ hg he hp) ((hf1 b).matches_ hg he hp) e
  rcases Nat.lt_or_gt_of_ne (fun h => hab (Fin.ext h)) with h | h
  · exact main a b h e'
  · exact main b a h e'.symm

end
end Gamma
