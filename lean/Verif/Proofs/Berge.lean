import Verif.Proofs.Cert
import Verif.Proofs.AugPath
/-
The Tutte–Berge formula: the certificate the search ends with, in terms of odd components.
-/
namespace Gamma
open Pairing

variable {g : GraphI} {p : Pairing} {M : List (Nat × Nat)} {A : Finset Nat}

open Classical in
/-- The nodes of a component. -/
noncomputable def compNodes (g : GraphI) (A : Finset Nat) (K : (g.without A).ConnectedComponent) : Finset Nat :=
  g.nodes.toFinset.filter (fun v => ∃ h : v ∈ {v | v ∈ g.nodes ∧ v ∉ A}, (g.without A).connectedComponentMk ⟨v, h⟩ = K)

theorem mem_compNodes {K : (g.without A).ConnectedComponent} {v : Nat} :
    v ∈ compNodes g A K ↔ ∃ h : v ∈ {v | v ∈ g.nodes ∧ v ∉ A}, (g.without A).connectedComponentMk ⟨v, h⟩ = K := by
  classical
  simp only [compNodes, Finset.mem_filter, List.mem_toFinset]
  exact ⟨fun h => h.2, fun h => ⟨h.1.1, h⟩⟩

theorem compNodes_card (K : (g.without A).ConnectedComponent) : K.supp.ncard = (compNodes g A K).card := by
  rw [← Set.ncard_coe_finset, ← Set.ncard_image_of_injective K.supp Subtype.val_injective]
  congr 1
  ext v
  simp only [Set.mem_image, SimpleGraph.ConnectedComponent.mem_supp_iff, Finset.mem_coe, mem_compNodes]
  constructor
  · rintro ⟨⟨x, hx⟩, h, rfl⟩; exact ⟨hx, h⟩
  · rintro ⟨h, e⟩; exact ⟨⟨v, h⟩, e, rfl⟩

theorem compNodes_closed {K : (g.without A).ConnectedComponent} {u v : Nat} (hg : g.Lawful) (hu : u ∈ compNodes g A K)
    (hne : u ≠ v) (hadj : g.Adj u v) (hv : v ∉ A) : v ∈ compNodes g A K := by
  rw [mem_compNodes] at hu ⊢
  obtain ⟨h, e⟩ := hu
  have hv' : v ∈ {v | v ∈ g.nodes ∧ v ∉ A} := ⟨hg.adj_mem _ _ hadj, hv⟩
  refine ⟨hv', ?_⟩
  rw [← e, SimpleGraph.ConnectedComponent.eq]
  refine SimpleGraph.Adj.reachable ?_
  simp only [SimpleGraph.comap_adj, Function.Embedding.subtype_apply, GraphI.simple, SimpleGraph.fromRel_adj]
  exact ⟨hne.symm, .inr hadj⟩

/-- In an odd component some node is not matched inside it. -/
theorem odd_free (hg : g.Lawful) {R : Nat → Nat → Prop} (fn : ∀ x y z, R x y → R x z → y = z) (sym : ∀ x y, R x y → R y x)
    (irr : ∀ x, ¬ R x x) (adj : ∀ x y, R x y → g.Adj x y) {K : (g.without A).ConnectedComponent} (hK : Odd K.supp.ncard) :
    ∃ u ∈ compNodes g A K, ∀ y, R u y → y ∈ A := by
  by_contra hc
  push Not at hc
  rw [compNodes_card] at hK
  refine Nat.not_even_iff_odd.2 hK (even_card_of_mates _ R ?_ fn sym irr)
  intro x hx
  obtain ⟨y, hy, hyA⟩ := hc x hx
  exact ⟨y, compNodes_closed hg hx (fun e => irr x (by rw [← e] at hy; exact hy)) (adj _ _ hy) hyA, hy⟩

/-- A component with exactly one node that is not matched inside it is odd. -/
theorem odd_of_free (hg : g.Lawful) {R : Nat → Nat → Prop} (fn : ∀ x y z, R x y → R x z → y = z) (sym : ∀ x y, R x y → R y x)
    (irr : ∀ x, ¬ R x x) (adj : ∀ x y, R x y → g.Adj x y) {K : (g.without A).ConnectedComponent} {u : Nat}
    (hu : u ∈ compNodes g A K) (hfree : ∀ y, R u y → y ∈ A)
    (one : ∀ v ∈ compNodes g A K, (∀ y, R v y → y ∈ A) → v = u) : Odd K.supp.ncard := by
  have h : Even ((compNodes g A K).erase u).card := by
    refine even_card_of_mates _ R ?_ fn sym irr
    intro x hx
    rw [Finset.mem_erase] at hx
    have : ¬ ∀ y, R x y → y ∈ A := fun h => hx.1 (one x hx.2 h)
    push Not at this
    obtain ⟨y, hy, hyA⟩ := this
    refine ⟨y, Finset.mem_erase.2 ⟨?_, ?_⟩, hy⟩
    · rintro rfl
      obtain ⟨h, -⟩ := mem_compNodes.1 hx.2
      exact h.2 (hfree _ (sym _ _ hy))
    · exact compNodes_closed hg hx.2 (fun e => irr x (by rw [← e] at hy; exact hy)) (adj _ _ hy) hyA
  rw [compNodes_card, ← Finset.card_erase_add_one hu]
  exact h.add_one

theorem compNodes_disjoint {K K' : (g.without A).ConnectedComponent} {v : Nat} (h : v ∈ compNodes g A K)
    (h' : v ∈ compNodes g A K') : K = K' := by
  obtain ⟨h1, e1⟩ := mem_compNodes.1 h
  obtain ⟨h2, e2⟩ := mem_compNodes.1 h'
  rw [← e1, ← e2]

instance rest_finite : Finite {v | v ∈ g.nodes ∧ v ∉ A} :=
  Set.Finite.subset (List.finite_toSet g.nodes) (fun _ h => h.1)

/-- Weak duality: every set of nodes bounds every matching. -/
theorem berge_le (hg : g.Lawful) (hM : IsMatching g M) (hA : ∀ a ∈ A, a ∈ g.nodes) :
    g.oddParts A + 2 * M.length ≤ g.nodes.length + A.card := by
  classical
  unfold GraphI.oddParts
  let X := g.nodes.toFinset.filter (fun v => ¬ ∃ w, MRel M v w)
  have hX : X.card + 2 * M.length = g.nodes.length := card_uncovered hg hM
  suffices h : (g.without A).oddComponents.ncard ≤ X.card + A.card by omega
  have ex : ∀ K ∈ (g.without A).oddComponents, ∃ u ∈ compNodes g A K, ∀ y, MRel M u y → y ∈ A := fun K hK =>
    odd_free hg (R := MRel M) (fun x y z => hM.rel_fn) (fun x y h => h.symm) (fun x hx => hM.rel_ne hx rfl)
      (fun x y h => hM.rel_adj hg h) hK
  choose! f hf hfA using ex
  let φ : (g.without A).ConnectedComponent → Nat ⊕ Nat := fun K =>
    if h : ∃ w, MRel M (f K) w then .inr h.choose else .inl (f K)
  have hle : (g.without A).oddComponents.ncard ≤ ((X.disjSum A : Finset (Nat ⊕ Nat)) : Set (Nat ⊕ Nat)).ncard := by
    refine Set.ncard_le_ncard_of_injOn φ ?_ ?_ (Finset.finite_toSet _)
    · intro K hK
      simp only [φ, Finset.mem_coe]
      split
      · next h => exact Finset.inr_mem_disjSum.2 (hfA K hK _ h.choose_spec)
      · next h =>
        refine Finset.inl_mem_disjSum.2 (Finset.mem_filter.2 ⟨?_, h⟩)
        obtain ⟨h', -⟩ := mem_compNodes.1 (hf K hK)
        exact List.mem_toFinset.2 h'.1
    · intro K hK K' hK' e
      have key : f K = f K' := by
        simp only [φ] at e
        split at e <;> split at e
        · next h h' =>
          have h1 := h.choose_spec; have h2 := h'.choose_spec
          simp only [Sum.inr.injEq] at e
          rw [← e] at h2
          exact hM.rel_fn h1.symm h2.symm
        · simp at e
        · simp at e
        · simpa using e
      exact compNodes_disjoint (hf K hK) (key ▸ hf K' hK')
  rw [Set.ncard_coe_finset, Finset.card_disjSum] at hle
  exact hle

/-- The certificate as an equation. -/
theorem Cert.berge {B : Nat → Prop} {c : Nat → Nat} (hg : g.Lawful) (hp : p.Matches g) (h : Cert g p B c) :
    ∃ A : Finset Nat, (∀ a ∈ A, a ∈ g.nodes) ∧
      g.oddParts A + p.order = g.nodes.length + A.card := by
  classical
  have hs := hp.symmetric
  refine ⟨g.nodes.toFinset.filter B, fun a ha => List.mem_toFinset.1 (Finset.mem_filter.1 ha).1, ?_⟩
  set A := g.nodes.toFinset.filter B with hAdef
  have mA : ∀ x, x ∈ A ↔ x ∈ g.nodes ∧ B x := fun x => by simp [A]
  have hle : p.order + g.oddParts A ≤ g.nodes.length + A.card := by
    have h1 := berge_le (A := A) hg (hp.isMatching HashOrder.id_valid) (fun a ha => ((mA a).1 ha).1)
    have h2 := order_eq HashOrder.id_valid hs
    omega
  have hX := card_exposed hg hp
  unfold GraphI.oddParts at hle ⊢
  suffices hge : (exposed g p).card + A.card ≤ (g.without A).oddComponents.ncard by omega
  -- classes along components
  have hcls : ∀ K : (g.without A).ConnectedComponent, ∀ u ∈ compNodes g A K, ∀ v ∈ compNodes g A K, c u = c v := by
    intro K u hu v hv
    obtain ⟨hu', eu⟩ := mem_compNodes.1 hu
    obtain ⟨hv', ev⟩ := mem_compNodes.1 hv
    rw [← ev, SimpleGraph.ConnectedComponent.eq] at eu
    obtain ⟨w⟩ := eu
    have : ∀ (a b : {v | v ∈ g.nodes ∧ v ∉ A}), (g.without A).Walk a b → c a.1 = c b.1 := by
      intro a b w
      induction w with
      | nil => rfl
      | @cons x y z hxy _ ih =>
        rw [← ih]
        simp only [SimpleGraph.comap_adj, Function.Embedding.subtype_apply, GraphI.simple, SimpleGraph.fromRel_adj] at hxy
        have hadj : g.Adj x.1 y.1 := hxy.2.elim (fun h => h) (fun h => hg.adj_symm _ _ h)
        have nB : ∀ z : {v | v ∈ g.nodes ∧ v ∉ A}, ¬ B z.1 := fun z hz => z.2.2 ((mA _).2 ⟨z.2.1, hz⟩)
        rcases h.edge x.1 y.1 hxy.1 hadj with h1 | h1 | h1
        · exact absurd h1 (nB x)
        · exact absurd h1 (nB y)
        · exact h1
    exact this _ _ w
  have free_iff : ∀ u ∈ g.nodes, (∀ y, p.get u = some y → y ∈ A) → ∀ y, p.get u = some y → B y :=
    fun u _ hf y hy => ((mA y).1 (hf y hy)).2
  -- the free nodes
  let F := g.nodes.toFinset.filter (fun u => u ∉ A ∧ ∀ y, p.get u = some y → y ∈ A)
  have mF : ∀ u, u ∈ F ↔ u ∈ g.nodes ∧ u ∉ A ∧ ∀ y, p.get u = some y → y ∈ A := fun u => by
    simp only [F, Finset.mem_filter, List.mem_toFinset]
  have s1 : (exposed g p).card + A.card ≤ F.card := by
    let f : Nat → Nat := fun a => (p.get a).getD 0
    have hf : ∀ a ∈ A, p.get a = some (f a) ∧ ¬ B (f a) := by
      intro a ha
      rw [mA] at ha
      obtain ⟨y, e, hy⟩ := h.odd a ha.1 ha.2
      have : f a = y := by simp [f, e]
      rw [this]; exact ⟨e, hy⟩
    have hinj : Set.InjOn f A := by
      intro a ha a' ha' e
      have h1 := hs.get_get (hf a ha).1
      have h2 := hs.get_get (hf a' ha').1
      rw [← e, h1] at h2; simpa using h2
    have hdis : Disjoint (exposed g p) (A.image f) := by
      rw [Finset.disjoint_left]
      intro x hx hx'
      obtain ⟨a, ha, rfl⟩ := Finset.mem_image.1 hx'
      have := hs.get_get (hf a ha).1
      rw [(mem_exposed.1 hx).2] at this; simp at this
    rw [← Finset.card_image_of_injOn hinj, ← Finset.card_union_of_disjoint hdis]
    refine Finset.card_le_card ?_
    intro x hx
    rw [mF]
    rcases Finset.mem_union.1 hx with hx | hx
    · have hx := mem_exposed.1 hx
      refine ⟨hx.1, fun ha => ?_, by simp [hx.2]⟩
      obtain ⟨y, e, -⟩ := h.odd x hx.1 ((mA x).1 ha).2
      rw [hx.2] at e; simp at e
    · obtain ⟨a, ha, rfl⟩ := Finset.mem_image.1 hx
      have h1 := hs.get_get (hf a ha).1
      refine ⟨hp.mem_left hg h1, fun h' => (hf a ha).2 ((mA _).1 h').2, fun y hy => ?_⟩
      rw [h1] at hy; cases hy
      exact ha
  -- each free node sits in an odd component of its own
  have hone : ∀ K : (g.without A).ConnectedComponent, ∀ u ∈ compNodes g A K, u ∈ F → ∀ v ∈ compNodes g A K, v ∈ F → v = u := by
    intro K u hu huF v hv hvF
    rw [mF] at huF hvF
    exact h.one v hvF.1 u huF.1 (fun hb => hvF.2.1 ((mA v).2 ⟨hvF.1, hb⟩)) (fun hb => huF.2.1 ((mA u).2 ⟨huF.1, hb⟩))
      (hcls K v hv u hu) (free_iff v hvF.1 hvF.2.2) (free_iff u huF.1 huF.2.2)
  have hmem : ∀ u ∈ F, u ∈ {v | v ∈ g.nodes ∧ v ∉ A} := fun u hu => ⟨((mF u).1 hu).1, ((mF u).1 hu).2.1⟩
  have s2 : (F : Set Nat).ncard ≤ (g.without A).oddComponents.ncard := by
    let φ : Nat → (g.without A).ConnectedComponent ⊕ Unit := fun u =>
      if hu : u ∈ {v | v ∈ g.nodes ∧ v ∉ A} then .inl ((g.without A).connectedComponentMk ⟨u, hu⟩) else .inr ()
    have : (F : Set Nat).ncard ≤ (Sum.inl (β := Unit) '' (g.without A).oddComponents).ncard := by
      refine Set.ncard_le_ncard_of_injOn φ ?_ ?_ (Set.toFinite _)
      · intro u hu
        have hu' := hmem u hu
        refine ⟨(g.without A).connectedComponentMk ⟨u, hu'⟩, ?_, by simp only [φ]; rw [dif_pos hu']⟩
        have hin : u ∈ compNodes g A ((g.without A).connectedComponentMk ⟨u, hu'⟩) := mem_compNodes.2 ⟨hu', rfl⟩
        refine odd_of_free hg (R := fun x y => p.get x = some y) ?_ (fun x y h => hs.get_get h) (fun x hx => hs.ne hx rfl)
          (fun x y h => hp.adj' h) hin ((mF u).1 hu).2.2 ?_
        · intro x y z h1 h2; rw [h1] at h2; simpa using h2
        · intro v hv hfree
          obtain ⟨hv', -⟩ := mem_compNodes.1 hv
          exact hone _ u hin hu v hv ((mF v).2 ⟨hv'.1, hv'.2, hfree⟩)
      · intro u hu v hv e
        have hu' := hmem u hu; have hv' := hmem v hv
        simp only [φ] at e
        rw [dif_pos hu', dif_pos hv'] at e
        simp only [Sum.inl.injEq] at e
        exact (hone _ u (mem_compNodes.2 ⟨hu', rfl⟩) hu v (mem_compNodes.2 ⟨hv', e.symm⟩) hv).symm
    rwa [Set.ncard_image_of_injective _ Sum.inl_injective] at this
  rw [Set.ncard_coe_finset] at s2
  omega

/-- Kőnig: where edges join two colours, the certificate gives a vertex cover with one node per pair. -/
theorem Cert.cover {B : Nat → Prop} {c : Nat → Nat} (hg : g.Lawful) (hp : p.Matches g) (h : Cert g p B c)
    (col : Nat → Bool) (hcol : ∀ u v, u ≠ v → g.Adj u v → col u ≠ col v) :
    ∃ S : Finset Nat, (∀ v ∈ S, v ∈ g.nodes) ∧ (∀ u v, u ≠ v → g.Adj u v → u ∈ S ∨ v ∈ S) ∧ 2 * S.card ≤ p.order := by
  classical
  have hs := hp.symmetric
  let free : Nat → Prop := fun u => ∀ y, p.get u = some y → B y
  -- the colour chosen in a class: the one its free node does not have
  let ch : Nat → Bool := fun k => if hk : ∃ f, f ∈ g.nodes ∧ ¬ B f ∧ free f ∧ c f = k then !col hk.choose else true
  have hch : ∀ f, f ∈ g.nodes → ¬ B f → free f → col f ≠ ch (c f) := by
    intro f hf hfB hff
    have hk : ∃ f', f' ∈ g.nodes ∧ ¬ B f' ∧ free f' ∧ c f' = c f := ⟨f, hf, hfB, hff, rfl⟩
    have e : ch (c f) = !col hk.choose := dif_pos hk
    have hc := hk.choose_spec
    have : hk.choose = f := h.one _ hc.1 _ hf hc.2.1 hfB hc.2.2.2 hc.2.2.1 hff
    rw [e, this]; simp
  let inS : Nat → Prop := fun u => B u ∨ col u = ch (c u)
  let S := g.nodes.toFinset.filter inS
  have mS : ∀ u, u ∈ S ↔ u ∈ g.nodes ∧ inS u := fun u => by simp only [S, Finset.mem_filter, List.mem_toFinset]
  have hmate : ∀ u ∈ S, ∃ y, p.get u = some y ∧ y ∉ S := by
    intro u hu
    rw [mS] at hu
    by_cases hB : B u
    · obtain ⟨y, e, hy⟩ := h.odd u hu.1 hB
      refine ⟨y, e, fun hyS => ?_⟩
      rw [mS] at hyS
      refine hch y hyS.1 hy ?_ (hyS.2.resolve_left hy)
      intro z hz
      rw [hs.get_get e] at hz; cases hz; exact hB
    · have hc := hu.2.resolve_left hB
      have hnf : ¬ free u := fun hf => hch u hu.1 hB hf hc
      simp only [free] at hnf
      push Not at hnf
      obtain ⟨y, e, hy⟩ := hnf
      refine ⟨y, e, fun hyS => ?_⟩
      rw [mS] at hyS
      have hadj := hp.adj' e
      have hcc : c u = c y := by
        rcases h.edge u y (hs.ne e) hadj with h1 | h1 | h1
        · exact absurd h1 hB
        · exact absurd h1 hy
        · exact h1
      have := hyS.2.resolve_left hy
      exact hcol u y (hs.ne e) hadj (by rw [hc, this, hcc])
  refine ⟨S, fun v hv => ((mS v).1 hv).1, ?_, ?_⟩
  · intro u v hne hadj
    rw [mS, mS]
    have hu := hg.adj_mem _ _ (hg.adj_symm _ _ hadj)
    have hv := hg.adj_mem _ _ hadj
    rcases h.edge u v hne hadj with h1 | h1 | h1
    · exact .inl ⟨hu, .inl h1⟩
    · exact .inr ⟨hv, .inl h1⟩
    · have := hcol u v hne hadj
      by_cases e : col u = ch (c u)
      · exact .inl ⟨hu, .inr e⟩
      · refine .inr ⟨hv, .inr ?_⟩
        rw [← h1]
        cases h1 : col u <;> cases h2 : col v <;> cases h3 : ch (c u) <;> simp_all
  · choose! f hf hfS using hmate
    have hinj : Set.InjOn f S := by
      intro a ha a' ha' e
      have h1 := hs.get_get (hf a ha)
      have h2 := hs.get_get (hf a' ha')
      rw [← e, h1] at h2; simpa using h2
    have hdis : Disjoint S (S.image f) := by
      rw [Finset.disjoint_left]
      intro x hx hx'
      obtain ⟨a, ha, rfl⟩ := Finset.mem_image.1 hx'
      exact hfS a ha hx
    have hX : p.order = ((p.pairs.map Prod.fst).toFinset).card := by
      rw [List.toFinset_card_of_nodup hs.keys_nodup]; simp [order]
    have h1 : (S ∪ S.image f).card = 2 * S.card := by
      rw [Finset.card_union_of_disjoint hdis, Finset.card_image_of_injOn hinj]; omega
    rw [← h1, hX]
    refine Finset.card_le_card ?_
    intro x hx
    simp only [List.mem_toFinset, keys_mem, hasNode_iff]
    rcases Finset.mem_union.1 hx with hx | hx
    · exact ⟨_, hf x hx⟩
    · obtain ⟨a, ha, rfl⟩ := Finset.mem_image.1 hx
      exact ⟨_, hs.get_get (hf a ha)⟩

/-- Every matching has at most as many edges as a vertex cover has nodes. -/
theorem matching_le_cover (hM : IsMatching g M) (S : Finset Nat) (hS : ∀ u v, u ≠ v → g.Adj u v → u ∈ S ∨ v ∈ S) :
    M.length ≤ S.card := by
  classical
  let f : Nat × Nat → Nat := fun e => if e.1 ∈ S then e.1 else e.2
  have hf : ∀ e ∈ M, f e ∈ S := by
    intro e he
    simp only [f]
    split
    · assumption
    · next h => exact (hS e.1 e.2 (hM.edge e he).1 (hM.edge e he).2).resolve_left h
  have hnd : (M.map f).Nodup := by
    have hp : (M.map f).Pairwise (· ≠ ·) := by
      rw [List.pairwise_map]
      refine hM.disjoint.imp ?_
      intro e e' h
      simp only [f]
      split <;> split
      · exact h.1
      · exact h.2.1
      · exact h.2.2.1
      · exact h.2.2.2
    exact hp
  have := Finset.card_le_card (s := (M.map f).toFinset) (t := S) (by
    intro x hx
    obtain ⟨e, he, rfl⟩ := List.mem_map.1 (List.mem_toFinset.1 hx)
    exact hf e he)
  rwa [List.toFinset_card_of_nodup hnd, List.length_map] at this

/-! ### Matchings under maps between graphs -/

/-- A map that is injective on the nodes and keeps adjacency carries matchings to matchings. -/
theorem IsMatching.map {h : GraphI} (hg : g.Lawful) (hM : IsMatching g M) (f : Nat → Nat)
    (inj : ∀ u ∈ g.nodes, ∀ v ∈ g.nodes, f u = f v → u = v) (adj : ∀ u v, u ≠ v → g.Adj u v → h.Adj (f u) (f v)) :
    IsMatching h (M.map (fun e => (f e.1, f e.2))) := by
  have mem : ∀ e ∈ M, e.1 ∈ g.nodes ∧ e.2 ∈ g.nodes := fun e he =>
    ⟨hg.adj_mem _ _ (hg.adj_symm _ _ (hM.edge e he).2), hg.adj_mem _ _ (hM.edge e he).2⟩
  refine ⟨?_, ?_⟩
  · intro e he
    obtain ⟨e', he', rfl⟩ := List.mem_map.1 he
    have := hM.edge e' he'
    exact ⟨fun h => this.1 (inj _ (mem e' he').1 _ (mem e' he').2 h), adj _ _ this.1 this.2⟩
  · rw [List.pairwise_map]
    refine hM.disjoint.imp_of_mem ?_
    intro e e' he he' hd
    have m := mem e he; have m' := mem e' he'
    exact ⟨fun h => hd.1 (inj _ m.1 _ m'.1 h), fun h => hd.2.1 (inj _ m.1 _ m'.2 h),
      fun h => hd.2.2.1 (inj _ m.2 _ m'.1 h), fun h => hd.2.2.2 (inj _ m.2 _ m'.2 h)⟩

/-- Leaving out the edge between `s` and `t` costs a matching at most one edge. -/
theorem matching_drop_one {h : GraphI} {N : List (Nat × Nat)} (hN : IsMatching h N) {s t : Nat} :
    ((∀ u v, h.Adj u v → ¬ ((u = s ∧ v = t) ∨ (u = t ∧ v = s)) → g.Adj u v) →
      IsMatching g (N.filter (fun e => decide (¬ ((e.1 = s ∧ e.2 = t) ∨ (e.1 = t ∧ e.2 = s)))))) ∧
    N.length ≤ (N.filter (fun e => decide (¬ ((e.1 = s ∧ e.2 = t) ∨ (e.1 = t ∧ e.2 = s))))).length + 1 := by
  constructor
  · intro hadj
    refine ⟨fun e he => ?_, hN.disjoint.sublist List.filter_sublist⟩
    rw [List.mem_filter, decide_eq_true_eq] at he
    exact ⟨(hN.edge e he.1).1, hadj _ _ (hN.edge e he.1).2 he.2⟩
  · let P : Nat × Nat → Bool := fun e => decide ((e.1 = s ∧ e.2 = t) ∨ (e.1 = t ∧ e.2 = s))
    have h1 : (N.filter P).length ≤ 1 := by
      have hd := hN.disjoint.sublist (List.filter_sublist (p := P))
      have hP : ∀ e ∈ N.filter P, (e.1 = s ∧ e.2 = t) ∨ (e.1 = t ∧ e.2 = s) := fun e he => by
        have := (List.mem_filter.1 he).2
        simpa [P] using this
      rcases hf : N.filter P with _ | ⟨a, _ | ⟨b, l⟩⟩
      · simp
      · simp
      · rw [hf] at hd hP
        have ha := hP a (by simp); have hb := hP b (by simp)
        have hab := (List.pairwise_cons.1 hd).1 b (by simp)
        exfalso
        rcases ha with ha | ha <;> rcases hb with hb | hb
        · exact hab.1 (by rw [ha.1, hb.1])
        · exact hab.2.1 (by rw [ha.1, hb.2])
        · exact hab.2.1 (by rw [ha.1, hb.2])
        · exact hab.1 (by rw [ha.1, hb.1])
    have h2 := List.length_eq_length_filter_add (l := N) P
    have h3 : (fun e : Nat × Nat => !P e) = fun e => decide (¬ ((e.1 = s ∧ e.2 = t) ∨ (e.1 = t ∧ e.2 = s))) := by
      funext e; simp only [P, decide_not]
    rw [h3] at h2
    omega

end Gamma
