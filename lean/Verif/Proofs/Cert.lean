import Verif.Proofs.Contract2
import Mathlib.Algebra.BigOperators.Group.Finset.Basic
import Mathlib.Data.ZMod.Basic
import Mathlib.Algebra.Ring.Parity
/-
A certificate that a matching is maximum: a Tutte–Berge barrier, and how it survives un-contraction.
-/
namespace Gamma
open Pairing

/-! ### Counting -/

theorem even_card_of_mates (s : Finset Nat) (R : Nat → Nat → Prop) (ex : ∀ x ∈ s, ∃ y ∈ s, R x y)
    (fn : ∀ x y z, R x y → R x z → y = z) (sym : ∀ x y, R x y → R y x) (irr : ∀ x, ¬ R x x) :
    Even s.card := by
  classical
  choose! f hf hR using ex
  have h : ∑ x ∈ s, (1 : ZMod 2) = 0 := by
    refine Finset.sum_involution (fun a _ => f a) ?_ ?_ ?_ ?_
    · intro a ha; decide
    · intro a ha _ e
      have := hR a ha; rw [e] at this; exact irr a this
    · intro a ha; exact hf a ha
    · intro a ha
      exact fn (f a) _ _ (hR (f a) (hf a ha)) (sym _ _ (hR a ha))
  rw [Finset.sum_const, nsmul_eq_mul, mul_one] at h
  exact (ZMod.natCast_eq_zero_iff_even).1 h

/-- The nodes of `g` that `p` leaves unpaired. -/
def exposed (g : GraphI) (p : Pairing) : Finset Nat := g.nodes.toFinset.filter (fun v => p.get v = none)

theorem mem_exposed {g : GraphI} {p : Pairing} {v : Nat} : v ∈ exposed g p ↔ v ∈ g.nodes ∧ p.get v = none := by
  simp [exposed]

theorem card_exposed {g : GraphI} {p : Pairing} (hg : g.Lawful) (hp : p.Matches g) :
    (exposed g p).card + p.order = g.nodes.length := by
  have h1 : (p.pairs.map Prod.fst).toFinset = g.nodes.toFinset.filter (fun v => ¬ p.get v = none) := by
    ext x
    simp only [List.mem_toFinset, Finset.mem_filter, keys_mem, hasNode_iff]
    constructor
    · rintro ⟨y, e⟩; exact ⟨hp.mem_left hg e, by simp [e]⟩
    · rintro ⟨-, e⟩; exact Option.ne_none_iff_exists'.1 e
  have h2 : p.order = (g.nodes.toFinset.filter (fun v => ¬ p.get v = none)).card := by
    rw [← h1, List.toFinset_card_of_nodup hp.symmetric.keys_nodup]; simp [order]
  rw [h2, exposed, Finset.card_filter_add_card_filter_not, List.toFinset_card_of_nodup hg.nodes_nodup]

/-! ### Matchings as relations -/

/-- Joined by an edge of `M`. -/
def MRel (M : List (Nat × Nat)) (u v : Nat) : Prop := (u, v) ∈ M ∨ (v, u) ∈ M

theorem MRel.symm {M : List (Nat × Nat)} {u v : Nat} (h : MRel M u v) : MRel M v u := Or.symm h

theorem pairwise_sym {M : List (Nat × Nat)} {R : Nat × Nat → Nat × Nat → Prop} (hs : ∀ e f, R e f → R f e)
    (h : M.Pairwise R) {e f : Nat × Nat} (he : e ∈ M) (hf : f ∈ M) (hne : e ≠ f) : R e f := by
  rw [List.pairwise_iff_getElem] at h
  obtain ⟨i, hi, rfl⟩ := List.getElem_of_mem he
  obtain ⟨j, hj, rfl⟩ := List.getElem_of_mem hf
  rcases Nat.lt_trichotomy i j with hij | hij | hij
  · exact h i j hi hj hij
  · subst hij; exact absurd rfl hne
  · exact hs _ _ (h j i hj hi hij)

variable {g : GraphI} {p : Pairing} {M : List (Nat × Nat)}

theorem IsMatching.apart (h : IsMatching g M) {e f : Nat × Nat} (he : e ∈ M) (hf : f ∈ M) (hne : e ≠ f) :
    e.1 ≠ f.1 ∧ e.1 ≠ f.2 ∧ e.2 ≠ f.1 ∧ e.2 ≠ f.2 :=
  pairwise_sym (R := fun e f => e.1 ≠ f.1 ∧ e.1 ≠ f.2 ∧ e.2 ≠ f.1 ∧ e.2 ≠ f.2)
    (fun e f h => ⟨h.1.symm, h.2.2.1.symm, h.2.1.symm, h.2.2.2.symm⟩) h.disjoint he hf hne

theorem IsMatching.rel_fn (h : IsMatching g M) {u v w : Nat} (h1 : MRel M u v) (h2 : MRel M u w) : v = w := by
  have key : ∀ e f : Nat × Nat, e ∈ M → f ∈ M → (e.1 = u ∨ e.2 = u) → (f.1 = u ∨ f.2 = u) → e = f := by
    intro e f he hf h1 h2
    by_contra hne
    have := h.apart he hf hne
    rcases h1 with h1 | h1 <;> rcases h2 with h2 | h2 <;> simp_all
  have irr : ∀ x, (x, x) ∉ M := fun x hx => (h.edge _ hx).1 rfl
  rcases h1 with h1 | h1 <;> rcases h2 with h2 | h2
  · have := key _ _ h1 h2 (by simp) (by simp); simp at this; exact this
  · have := key _ _ h1 h2 (by simp) (by simp); simp at this
    obtain ⟨rfl, rfl⟩ := this; rfl
  · have := key _ _ h1 h2 (by simp) (by simp); simp at this
    obtain ⟨rfl, rfl⟩ := this; rfl
  · have := key _ _ h1 h2 (by simp) (by simp); simp at this; exact this

theorem IsMatching.rel_adj (hg : g.Lawful) (h : IsMatching g M) {u v : Nat} (h1 : MRel M u v) : g.Adj u v := by
  rcases h1 with h1 | h1
  · exact (h.edge _ h1).2
  · exact hg.adj_symm _ _ (h.edge _ h1).2

theorem IsMatching.rel_ne (h : IsMatching g M) {u v : Nat} (h1 : MRel M u v) : u ≠ v := by
  rcases h1 with h1 | h1
  · exact (h.edge _ h1).1
  · exact (h.edge _ h1).1.symm

theorem endpoints_nodup (h1 : ∀ e ∈ M, e.1 ≠ e.2)
    (h2 : M.Pairwise (fun e f => e.1 ≠ f.1 ∧ e.1 ≠ f.2 ∧ e.2 ≠ f.1 ∧ e.2 ≠ f.2)) : (endpoints M).Nodup := by
  unfold endpoints
  rw [List.nodup_flatMap]
  refine ⟨fun e he => by simpa using h1 e he, h2.imp ?_⟩
  intro e f h x hx hy
  simp at hx hy
  rcases hx with rfl | rfl <;> rcases hy with hy | hy <;> simp_all

theorem endpoints_length (M : List (Nat × Nat)) : (endpoints M).length = 2 * M.length := by
  unfold endpoints
  induction M with
  | nil => rfl
  | cons e M ih => simp at ih ⊢; omega

theorem mem_endpoints {u : Nat} : u ∈ endpoints M ↔ ∃ v, MRel M u v := by
  unfold endpoints MRel
  simp only [List.mem_flatMap, List.mem_cons, List.not_mem_nil, or_false]
  constructor
  · rintro ⟨⟨a, c⟩, hm, rfl | rfl⟩
    · exact ⟨c, .inl hm⟩
    · exact ⟨a, .inr hm⟩
  · rintro ⟨v, h | h⟩
    · exact ⟨_, h, .inl rfl⟩
    · exact ⟨_, h, .inr rfl⟩

theorem card_uncovered (hg : g.Lawful) (h : IsMatching g M) [DecidablePred fun v => ∃ w, MRel M v w] :
    (g.nodes.toFinset.filter (fun v => ¬ ∃ w, MRel M v w)).card + 2 * M.length = g.nodes.length := by
  have h1 : (endpoints M).toFinset = g.nodes.toFinset.filter (fun v => ∃ w, MRel M v w) := by
    ext x
    simp only [List.mem_toFinset, Finset.mem_filter, mem_endpoints]
    constructor
    · rintro ⟨y, e⟩; exact ⟨hg.adj_src (h.rel_adj hg e), y, e⟩
    · exact And.right
  have h2 : 2 * M.length = (g.nodes.toFinset.filter (fun v => ∃ w, MRel M v w)).card := by
    rw [← h1, List.toFinset_card_of_nodup (endpoints_nodup (fun e he => (h.edge e he).1) h.disjoint),
      endpoints_length]
  rw [h2, add_comm, Finset.card_filter_add_card_filter_not, List.toFinset_card_of_nodup hg.nodes_nodup]

/-! ### The certificate -/

/-- A barrier `A` and a labelling `c` of the rest by classes: every edge touches the barrier or stays in one
class, every barrier node is paired with a node outside the barrier, and each class has at most one node
that is not paired outside the barrier. -/
structure Cert (g : GraphI) (p : Pairing) (A : Nat → Prop) (c : Nat → Nat) : Prop where
  edge : ∀ u v, u ≠ v → g.Adj u v → A u ∨ A v ∨ c u = c v
  odd : ∀ a ∈ g.nodes, A a → ∃ y, p.get a = some y ∧ ¬ A y
  one : ∀ u ∈ g.nodes, ∀ v ∈ g.nodes, ¬ A u → ¬ A v → c u = c v → (∀ y, p.get u = some y → A y) →
    (∀ y, p.get v = some y → A y) → u = v

theorem Cert.maximum {A : Nat → Prop} {c : Nat → Nat} (hg : g.Lawful) (hp : p.Matches g) (h : Cert g p A c)
    (hM : IsMatching g M) : 2 * M.length ≤ p.order := by
  classical
  have hs := hp.symmetric
  let V := g.nodes.toFinset
  have mV : ∀ x, x ∈ V ↔ x ∈ g.nodes := fun x => List.mem_toFinset
  let AV := V.filter A
  let F := V.filter (fun u => ¬ A u ∧ ∀ y, p.get u = some y → A y)
  let F' := V.filter (fun u => ¬ A u ∧ ∀ y, MRel M u y → A y)
  let X' := V.filter (fun v => ¬ ∃ w, MRel M v w)
  have s1 : (exposed g p).card + AV.card ≤ F.card := by
    let f : Nat → Nat := fun a => (p.get a).getD 0
    have hf : ∀ a ∈ AV, p.get a = some (f a) ∧ ¬ A (f a) := by
      intro a ha
      simp only [AV, Finset.mem_filter, mV] at ha
      obtain ⟨y, e, hy⟩ := h.odd a ha.1 ha.2
      have : f a = y := by simp [f, e]
      rw [this]; exact ⟨e, hy⟩
    have hinj : Set.InjOn f AV := by
      intro a ha a' ha' e
      have h1 := hs.get_get (hf a ha).1
      have h2 := hs.get_get (hf a' ha').1
      rw [← e, h1] at h2; simpa using h2
    have hdis : Disjoint (exposed g p) (AV.image f) := by
      rw [Finset.disjoint_left]
      intro x hx hx'
      obtain ⟨a, ha, rfl⟩ := Finset.mem_image.1 hx'
      have := hs.get_get (hf a ha).1
      rw [(mem_exposed.1 hx).2] at this; simp at this
    rw [← Finset.card_image_of_injOn hinj, ← Finset.card_union_of_disjoint hdis]
    refine Finset.card_le_card ?_
    intro x hx
    simp only [F, Finset.mem_filter, mV]
    rcases Finset.mem_union.1 hx with hx | hx
    · have hx := mem_exposed.1 hx
      refine ⟨hx.1, fun ha => ?_, by simp [hx.2]⟩
      obtain ⟨y, e, -⟩ := h.odd x hx.1 ha
      rw [hx.2] at e; simp at e
    · obtain ⟨a, ha, rfl⟩ := Finset.mem_image.1 hx
      have h1 := hs.get_get (hf a ha).1
      refine ⟨hp.mem_left hg h1, (hf a ha).2, fun y hy => ?_⟩
      rw [h1] at hy; cases hy
      exact (Finset.mem_filter.1 ha).2
  have s2 : F.card ≤ F'.card := by
    have ex : ∀ u ∈ F, ∃ v ∈ F', c v = c u := by
      intro u hu
      simp only [F, Finset.mem_filter, mV] at hu
      by_contra hc
      push Not at hc
      let C := V.filter (fun v => ¬ A v ∧ c v = c u)
      have mC : ∀ x, x ∈ C ↔ x ∈ g.nodes ∧ ¬ A x ∧ c x = c u := by
        intro x; simp only [C, Finset.mem_filter, mV]
      have e1 : Even C.card := by
        refine even_card_of_mates C (MRel M) ?_ (fun x y z => hM.rel_fn) (fun x y h => h.symm)
          (fun x hx => hM.rel_ne hx rfl)
        intro x hx
        rw [mC] at hx
        have : x ∉ F' := fun hx' => hc x hx' hx.2.2
        simp only [F', Finset.mem_filter, mV, not_and, not_forall] at this
        obtain ⟨y, hy, hyA⟩ := this hx.1 hx.2.1
        have hadj := hM.rel_adj hg hy
        refine ⟨y, (mC y).2 ⟨hg.adj_mem _ _ hadj, hyA, ?_⟩, hy⟩
        rcases h.edge x y (hM.rel_ne hy) hadj with h1 | h1 | h1
        · exact absurd h1 hx.2.1
        · exact absurd h1 hyA
        · rw [← h1, hx.2.2]
      have e2 : Even (C.erase u).card := by
        refine even_card_of_mates _ (fun x y => p.get x = some y) ?_ ?_ (fun x y h => hs.get_get h)
          (fun x hx => hs.ne hx rfl)
        · intro x hx
          rw [Finset.mem_erase, mC] at hx
          have : ¬ ∀ y, p.get x = some y → A y := fun hfree =>
            hx.1 (h.one x hx.2.1 u hu.1 hx.2.2.1 hu.2.1 hx.2.2.2 hfree hu.2.2)
          push Not at this
          obtain ⟨y, hy, hyA⟩ := this
          have hadj := hp.adj' hy
          refine ⟨y, ?_, hy⟩
          rw [Finset.mem_erase, mC]
          refine ⟨?_, hg.adj_mem _ _ hadj, hyA, ?_⟩
          · rintro rfl
            exact hx.2.2.1 (hu.2.2 x (hs.get_get hy))
          · rcases h.edge x y (hs.ne hy) hadj with h1 | h1 | h1
            · exact absurd h1 hx.2.2.1
            · exact absurd h1 hyA
            · rw [← h1, hx.2.2.2]
        · intro x y z h1 h2; rw [h1] at h2; simpa using h2
      have hu' : u ∈ C := (mC u).2 ⟨hu.1, hu.2.1, rfl⟩
      have := Finset.card_erase_add_one hu'
      rw [← this] at e1
      exact (Nat.even_add_one.1 e1) e2
    choose! f hf hfc using ex
    refine Finset.card_le_card_of_injOn f (fun u hu => hf u hu) ?_
    intro u hu v hv e
    have h1 := hfc u hu; have h2 := hfc v hv
    simp only [F, Finset.coe_filter, Set.mem_setOf_eq, mV] at hu hv
    exact h.one u hu.1 v hv.1 hu.2.1 hv.2.1 (by rw [← h1, ← h2, e]) hu.2.2 hv.2.2
  have s3 : F'.card ≤ X'.card + AV.card := by
    have ex : ∀ u ∈ F' \ X', ∃ v ∈ AV, MRel M u v := by
      intro u hu
      simp only [F', X', Finset.mem_sdiff, Finset.mem_filter, mV, not_and, not_not] at hu
      obtain ⟨w, hw⟩ := hu.2 hu.1.1
      refine ⟨w, ?_, hw⟩
      simp only [AV, Finset.mem_filter, mV]
      exact ⟨hg.adj_mem _ _ (hM.rel_adj hg hw), hu.1.2.2 w hw⟩
    choose! f hf hfr using ex
    have : (F' \ X').card ≤ AV.card := by
      refine Finset.card_le_card_of_injOn f (fun u hu => hf u hu) ?_
      intro u hu v hv e
      have h1 := (hfr u hu).symm; have h2 := (hfr v hv).symm
      rw [e] at h1
      exact hM.rel_fn h1 h2
    have h2 : F'.card ≤ (F' \ X').card + X'.card := Finset.card_le_card_sdiff_add_card
    omega
  have c1 := card_exposed hg hp
  have c2 := card_uncovered hg hM
  have : X'.card + 2 * M.length = g.nodes.length := c2
  omega

/-- An alternating path from its head to an unpaired node: the nodes are mates two by two, the last one is
unpaired. -/
inductive Stem (p : Pairing) : List Nat → Prop
  | root (r : Nat) : p.get r = none → Stem p [r]
  | cons (x y : Nat) (l : List Nat) : p.get x = some y → Stem p l → Stem p (x :: y :: l)

/-- The head of a stem is never in a barrier. -/
theorem Cert.stem {A : Nat → Prop} {c : Nat → Nat} (hg : g.Lawful) (hp : p.Matches g) (h : Cert g p A c)
    {l : List Nat} (hst : Stem p l) (hn : l.Nodup) (hc : l.IsChain g.Adj) (hm : ∀ x ∈ l, x ∈ g.nodes) :
    ∀ x, l.head? = some x → ¬ A x ∧ ∃ f ∈ l, ¬ A f ∧ c f = c x ∧ ∀ y, p.get f = some y → A y := by
  have hs := hp.symmetric
  induction hst with
  | root r hr =>
    intro x hx
    simp at hx; subst hx
    have : ¬ A r := fun ha => by
      obtain ⟨y, e, -⟩ := h.odd r (hm r (by simp)) ha
      rw [hr] at e; simp at e
    exact ⟨this, r, by simp, this, rfl, by simp [hr]⟩
  | cons x0 x1 l he hst ih =>
    intro x hx
    simp at hx; subst hx
    cases hst' : l with
    | nil => subst hst'; cases hst
    | cons x2 l2 =>
      subst hst'
      have hn' := List.nodup_cons.1 hn
      have hn'' := List.nodup_cons.1 hn'.2
      have hc1 := (List.isChain_cons_cons.1 hc).2
      have hc2 := List.isChain_cons_cons.1 hc1
      obtain ⟨h2, f, hf, hfA, hfc, hff⟩ := ih hn''.2 hc2.2 (fun x hx => hm x (by simp [hx])) x2 rfl
      have m0 : x0 ∈ g.nodes := hm x0 (by simp)
      have m1 : x1 ∈ g.nodes := hm x1 (by simp)
      by_cases a1 : A x1
      · obtain ⟨y, e, hy⟩ := h.odd x1 m1 a1
        have := hs.get_get he
        rw [e] at this; cases this
        refine ⟨hy, x0, by simp, hy, rfl, fun y hy => ?_⟩
        rw [he] at hy; cases hy; exact a1
      · have c12 : c x1 = c x2 := by
          have hne : x1 ≠ x2 := fun e => hn''.1 (by simp [e])
          rcases h.edge x1 x2 hne hc2.1 with h1 | h1 | h1
          · exact absurd h1 a1
          · exact absurd h1 h2
          · exact h1
        have a0 : ¬ A x0 := by
          intro a0
          have := h.one x1 m1 f (hm f (by simp only [List.mem_cons] at hf ⊢; tauto)) a1 hfA (by rw [c12, hfc]) (fun y hy => by
            rw [hs.get_get he] at hy; cases hy; exact a0) hff
          exact hn''.1 (this ▸ hf)
        have c01 : c x0 = c x1 := by
          rcases h.edge x0 x1 (hs.ne he) (hp.adj' he) with h1 | h1 | h1
          · exact absurd h1 a0
          · exact absurd h1 a1
          · exact h1
        exact ⟨a0, f, by simp only [List.mem_cons] at hf ⊢; tauto, hfA, by rw [hfc, ← c12, c01], hff⟩

/-- A certificate for the contracted matching gives one for the original matching. -/
theorem Cert.lift {b : Blossom} {base : Nat} {g' : GraphI} {p' : Pairing} {A : Nat → Prop} {c : Nat → Nat}
    (hc : Blossom.Con g p b base g' p') (h : Cert g' p' A c) (hid : ¬ A b.id) :
    Cert g p (fun x => A (kap b x)) (fun x => c (kap b x)) := by
  have hs := hc.matches_.symmetric
  refine ⟨?_, ?_, ?_⟩
  · intro u v hne hadj
    by_cases e : kap b u = kap b v
    · exact .inr (.inr (by rw [e]))
    · exact h.edge _ _ e ((hc.adj' _ _ e).2 ⟨u, v, hadj, rfl, rfl⟩)
  · intro a ha hA
    obtain ⟨y, e, hy⟩ := h.odd _ (hc.kap_mem ha) hA
    obtain ⟨hne, a', d, hd, e1, e2⟩ := (hc.get' _ _).1 e
    rcases (hc.free.kap_eq (hc.matches_.mem_left hc.lawful hd) ha).1 e1 with rfl | ⟨h1, h2⟩
    · exact ⟨d, hd, by rw [e2]; exact hy⟩
    · rw [kap_in h2] at hA; exact absurd hA hid
  · intro u hu v hv hAu hAv hcl fu fv
    -- a free node of the blossom is its base
    have hb : ∀ x, x ∈ b.path → (∀ y, p.get x = some y → A (kap b y)) → x = base := by
      intro x hx hf
      refine hc.flower.base_of_out hx (fun y hy hyb => ?_)
      have := hf y hy
      rw [kap_in hyb] at this; exact hid this
    have free' : ∀ x, x ∈ g.nodes → (∀ y, p.get x = some y → A (kap b y)) →
        ∀ y, p'.get (kap b x) = some y → A y := by
      intro x hx hf y hy
      obtain ⟨hne, a', d, hd, e1, e2⟩ := (hc.get' _ _).1 hy
      rcases (hc.free.kap_eq (hc.matches_.mem_left hc.lawful hd) hx).1 e1 with rfl | ⟨h1, h2⟩
      · rw [← e2]; exact hf d hd
      · have ha' : a' = base := hc.flower.base_of_out h1 (fun z hz hzb => by
          rw [hd] at hz; cases hz
          exact hne (by rw [← e1, ← e2, kap_in h1, kap_in hzb]))
        have := hb x h2 hf
        rw [this, ← ha'] at hf
        rw [← e2]; exact hf d hd
    have := h.one _ (hc.kap_mem hu) _ (hc.kap_mem hv) hAu hAv hcl (free' u hu fu) (free' v hv fv)
    rcases (hc.free.kap_eq hu hv).1 this with h1 | ⟨h1, h2⟩
    · exact h1
    · rw [hb u h1 fu, hb v h2 fv]

end Gamma
