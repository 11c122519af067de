import Verif.Proofs.Cert
/-
Un-contraction: paths and matchings of the contracted graph give paths and matchings of the original graph.
-/
namespace Gamma
open Pairing

/-- A list read as a closed walk. -/
def Cyclic (g : GraphI) (B : List Nat) : Prop := (B ++ B).IsChain g.Adj

theorem Cyclic.chain {g : GraphI} {B : List Nat} (h : Cyclic g B) : B.IsChain g.Adj := h.left_of_append

theorem Cyclic.swap {g : GraphI} {u v : List Nat} (h : Cyclic g (u ++ v)) : Cyclic g (v ++ u) := by
  unfold Cyclic at *
  cases v with
  | nil => simpa using h
  | cons x v =>
    have e1 : (x :: v ++ u) ++ (x :: v ++ u) = (x :: v ++ u) ++ x :: (v ++ u) := by simp
    rw [e1, List.isChain_split]
    constructor
    · refine h.infix ⟨u, v, by simp⟩
    · refine h.infix ⟨u, x :: v, by simp⟩

theorem Cyclic.reverse {g : GraphI} (hg : g.Lawful) {B : List Nat} (h : Cyclic g B) : Cyclic g B.reverse := by
  unfold Cyclic at *
  rw [← List.reverse_append, List.isChain_reverse]
  exact h.imp (fun a b hab => hg.adj_symm _ _ hab)

/-! ### Matchings -/

/-- First with second, third with fourth, … -/
def pairUp : List Nat → List (Nat × Nat)
  | a :: b :: l => (a, b) :: pairUp l
  | _ => []

theorem pairUp_length : ∀ l : List Nat, (pairUp l).length = l.length / 2
  | [] => rfl
  | [_] => by simp [pairUp]
  | a :: b :: l => by rw [pairUp, List.length_cons, pairUp_length l]; simp only [List.length_cons]; omega

theorem pairUp_mem : ∀ (l : List Nat) (e : Nat × Nat), e ∈ pairUp l → e.1 ∈ l ∧ e.2 ∈ l
  | [], e, h => by simp [pairUp] at h
  | [_], e, h => by simp [pairUp] at h
  | a :: b :: l, e, h => by
    rw [pairUp, List.mem_cons] at h
    rcases h with rfl | h
    · simp
    · have := pairUp_mem l e h; simp [this]

theorem pairUp_adj {R : Nat → Nat → Prop} : ∀ (l : List Nat), l.IsChain R → ∀ e ∈ pairUp l, R e.1 e.2
  | [], _, e, h => by simp [pairUp] at h
  | [_], _, e, h => by simp [pairUp] at h
  | a :: b :: l, hc, e, h => by
    rw [List.isChain_cons_cons] at hc
    rw [pairUp, List.mem_cons] at h
    rcases h with rfl | h
    · exact hc.1
    · exact pairUp_adj l hc.2.tail e h

theorem pairUp_ne : ∀ (l : List Nat), l.Nodup → ∀ e ∈ pairUp l, e.1 ≠ e.2
  | [], _, e, h => by simp [pairUp] at h
  | [_], _, e, h => by simp [pairUp] at h
  | a :: b :: l, hn, e, h => by
    rw [List.nodup_cons, List.nodup_cons] at hn
    rw [pairUp, List.mem_cons] at h
    rcases h with rfl | h
    · intro e; exact hn.1 (by simp [show a = b from e])
    · exact pairUp_ne l hn.2.2 e h

theorem pairUp_disjoint : ∀ (l : List Nat), l.Nodup →
    (pairUp l).Pairwise (fun e f => e.1 ≠ f.1 ∧ e.1 ≠ f.2 ∧ e.2 ≠ f.1 ∧ e.2 ≠ f.2)
  | [], _ => by simp [pairUp]
  | [_], _ => by simp [pairUp]
  | a :: b :: l, hn => by
    rw [List.nodup_cons, List.nodup_cons] at hn
    rw [pairUp, List.pairwise_cons]
    refine ⟨fun e he => ?_, pairUp_disjoint l hn.2.2⟩
    have := pairUp_mem l e he
    refine ⟨?_, ?_, ?_, ?_⟩
    · rintro rfl; exact hn.1 (by simp [this])
    · rintro rfl; exact hn.1 (by simp [this])
    · rintro rfl; exact hn.2.1 this.1
    · rintro rfl; exact hn.2.1 this.2

namespace Blossom
namespace Con
variable {g g' : GraphI} {b : Blossom} {p p' : Pairing} {base : Nat}

theorem card_exposed_eq (h : Con g p b base g' p') : (exposed g p).card = (exposed g' p').card := by
  have hb : ∀ x, p.get x = none → x ∈ b.path → x = base := fun x hx hxb =>
    h.flower.base_of_out hxb (by simp [hx])
  refine Finset.card_bij (fun x _ => kap b x) ?_ ?_ ?_
  · intro x hx
    rw [mem_exposed] at hx ⊢
    exact ⟨h.kap_mem hx.1, (h.get_none hx.1 (hb x hx.2)).2 hx.2⟩
  · intro x hx y hy e
    rw [mem_exposed] at hx hy
    rcases (h.free.kap_eq hx.1 hy.1).1 e with h1 | ⟨h1, h2⟩
    · exact h1
    · rw [hb x hx.2 h1, hb y hy.2 h2]
  · intro y hy
    rw [mem_exposed, h.mem_nodes] at hy
    obtain ⟨rfl | ⟨h1, h2⟩, hn⟩ := hy
    · have hbm := h.flower.sub _ h.flower.base_mem
      refine ⟨base, mem_exposed.2 ⟨hbm, ?_⟩, kap_in h.flower.base_mem⟩
      rw [← h.get_none hbm (fun _ => rfl), kap_in h.flower.base_mem]; exact hn
    · refine ⟨y, mem_exposed.2 ⟨h1, ?_⟩, kap_out h2⟩
      rw [← h.get_none h1 (fun h => absurd h h2), kap_out h2]; exact hn

theorem length_nodes (h : Con g p b base g' p') : g'.nodes.length + b.path.length = g.nodes.length + 1 := by
  have h1 : (g.nodes.filter (fun x => b.path.contains x)).Perm b.path := by
    rw [List.perm_ext_iff_of_nodup (h.lawful.nodes_nodup.filter _) h.flower.nodup]
    intro x
    simp only [List.mem_filter, List.contains_iff_mem, and_iff_right_iff_imp]
    exact h.flower.sub x
  have h2 := List.length_eq_length_filter_add (l := g.nodes) (fun x => b.path.contains x)
  rw [h.nodes', List.length_cons, h2, h1.length_eq]; omega

theorem order_eq (h : Con g p b base g' p') : p.order + 1 = p'.order + b.path.length := by
  have h1 := card_exposed h.lawful h.matches_
  have h2 := card_exposed h.lawful' h.matches'
  have h3 := h.card_exposed_eq
  have h4 := h.length_nodes
  omega

/-- A node other than the id is a node outside the blossom. -/
theorem out_of_ne (h : Con g p b base g' p') {x : Nat} (hx : x ∈ g'.nodes) (hne : x ≠ b.id) :
    x ∈ g.nodes ∧ x ∉ b.path := by
  rcases h.mem_nodes.1 hx with h1 | h1
  · exact absurd h1 hne
  · exact h1

theorem preimage (h : Con g p b base g' p') {x a : Nat} (hne : x ≠ b.id) (e : kap b a = x) : a = x := by
  by_cases ha : a ∈ b.path
  · rw [kap_in ha] at e; exact absurd e.symm hne
  · rwa [kap_out ha] at e

theorem adj_out (h : Con g p b base g' p') {x y : Nat} (hxy : x ≠ y) (hx : x ≠ b.id) (hy : y ≠ b.id)
    (ha : g'.Adj x y) : g.Adj x y := by
  obtain ⟨a, c, hac, e1, e2⟩ := (h.adj' x y hxy).1 ha
  rw [h.preimage hx e1, h.preimage hy e2] at hac; exact hac

theorem adj_id (h : Con g p b base g' p') {y : Nat} (hy : y ≠ b.id)
    (ha : g'.Adj b.id y) : ∃ a ∈ b.path, g.Adj a y := by
  obtain ⟨a, c, hac, e1, e2⟩ := (h.adj' _ y hy.symm).1 ha
  rw [h.preimage hy e2] at hac
  exact ⟨a, (h.free.kap_eq_id (h.lawful.adj_src hac)).1 e1, hac⟩

/-- Matchings lift, gaining half the rest of the blossom. -/
theorem lift_matching (h : Con g p b base g' p') (hcyc : Cyclic g b.path)
    {M' : List (Nat × Nat)} (hM : IsMatching g' M') :
    ∃ M, IsMatching g M ∧ M.length = M'.length + (b.path.length - 1) / 2 := by
  classical
  -- the node of the blossom that takes over the edge of the id
  have hb0 : ∃ b0 ∈ b.path, ∀ y, MRel M' b.id y → g.Adj b0 y := by
    by_cases hy : ∃ y, MRel M' b.id y
    · obtain ⟨y, hy⟩ := hy
      have hadj := hM.rel_adj h.lawful' hy
      obtain ⟨a, ha, haa⟩ := h.adj_id (hM.rel_ne hy).symm hadj
      exact ⟨a, ha, fun z hz => by rw [← hM.rel_fn hy hz]; exact haa⟩
    · exact ⟨base, h.flower.base_mem, fun y hy' => absurd ⟨y, hy'⟩ hy⟩
  obtain ⟨b0, hb0, hb0y⟩ := hb0
  obtain ⟨l1, l2, hsplit⟩ := List.append_of_mem hb0
  have hrot : Cyclic g (b0 :: (l2 ++ l1)) := by
    have : Cyclic g (l1 ++ b0 :: l2) := by rw [← hsplit]; exact hcyc
    have := this.swap
    simpa using this
  have hperm : (b0 :: (l2 ++ l1)).Perm b.path := by
    rw [hsplit]
    have := (List.perm_append_comm (l₁ := b0 :: l2) (l₂ := l1))
    simpa using this
  have hnd := hperm.nodup_iff.2 h.flower.nodup
  rw [List.nodup_cons] at hnd
  have hlen := hperm.length_eq
  let σ : Nat → Nat := fun x => if x = b.id then b0 else x
  have hσ : ∀ x, x ∈ g'.nodes → σ x ∈ g.nodes ∧ (σ x ∈ b.path → σ x = b0) := by
    intro x hx
    by_cases e : x = b.id
    · simp only [σ, e, if_true]; exact ⟨h.flower.sub _ hb0, fun _ => trivial⟩
    · simp only [σ, e, if_false]
      have := h.out_of_ne hx e
      exact ⟨this.1, fun h => absurd h this.2⟩
  have hinj : ∀ x y, x ∈ g'.nodes → y ∈ g'.nodes → σ x = σ y → x = y := by
    intro x y hx hy e
    by_cases e1 : x = b.id <;> by_cases e2 : y = b.id
    · rw [e1, e2]
    · simp only [σ, e1, e2, if_true, if_false] at e
      exact absurd (e ▸ hb0) (h.out_of_ne hy e2).2
    · simp only [σ, e1, e2, if_true, if_false] at e
      exact absurd (e ▸ hb0) (h.out_of_ne hx e1).2
    · simpa only [σ, e1, e2, if_false] using e
  have hmem : ∀ e ∈ M', e.1 ∈ g'.nodes ∧ e.2 ∈ g'.nodes := fun e he =>
    ⟨h.lawful'.adj_src (hM.edge e he).2, h.lawful'.adj_mem _ _ (hM.edge e he).2⟩
  refine ⟨M'.map (fun e => (σ e.1, σ e.2)) ++ pairUp (l2 ++ l1), ⟨?_, ?_⟩, ?_⟩
  · intro e he
    rcases List.mem_append.1 he with he | he
    · obtain ⟨⟨x, y⟩, hxy, rfl⟩ := List.mem_map.1 he
      have hm := hmem _ hxy
      have hed := hM.edge _ hxy
      simp only at hm hed ⊢
      refine ⟨fun e => hed.1 (hinj _ _ hm.1 hm.2 e), ?_⟩
      by_cases e1 : x = b.id <;> by_cases e2 : y = b.id
      · exact absurd (e1.trans e2.symm) hed.1
      · simp only [σ, e1, e2, if_true, if_false]
        exact hb0y y (.inl (e1 ▸ hxy))
      · simp only [σ, e1, e2, if_true, if_false]
        exact h.lawful.adj_symm _ _ (hb0y x (.inr (e2 ▸ hxy)))
      · simp only [σ, e1, e2, if_false]
        exact h.adj_out hed.1 e1 e2 hed.2
    · exact ⟨pairUp_ne _ hnd.2 e he, pairUp_adj _ hrot.chain.tail e he⟩
  · rw [List.pairwise_append]
    refine ⟨?_, pairUp_disjoint _ hnd.2, ?_⟩
    · rw [List.pairwise_map]
      refine List.Pairwise.imp_of_mem ?_ hM.disjoint
      intro e f he hf hd
      have h1 := hmem e he; have h2 := hmem f hf
      exact ⟨fun e => hd.1 (hinj _ _ h1.1 h2.1 e), fun e => hd.2.1 (hinj _ _ h1.1 h2.2 e),
        fun e => hd.2.2.1 (hinj _ _ h1.2 h2.1 e), fun e => hd.2.2.2 (hinj _ _ h1.2 h2.2 e)⟩
    · intro e he f hf
      obtain ⟨⟨x, y⟩, hxy, rfl⟩ := List.mem_map.1 he
      have hm := hmem _ hxy
      have hfm := pairUp_mem _ f hf
      have hfb : ∀ z, z ∈ l2 ++ l1 → z ∈ b.path := fun z hz => hperm.mem_iff.1 (by simp only [List.mem_cons]; exact .inr hz)
      have key : ∀ x ∈ g'.nodes, ∀ z ∈ l2 ++ l1, σ x ≠ z := by
        intro x hx z hz e
        have := (hσ x hx).2 (e ▸ hfb z hz)
        exact hnd.1 (by rw [← this, e]; exact hz)
      exact ⟨key _ hm.1 _ hfm.1, key _ hm.1 _ hfm.2, key _ hm.2 _ hfm.1, key _ hm.2 _ hfm.2⟩
  · simp only [List.length_append, List.length_map, pairUp_length]
    simp only [List.length_cons, List.length_append] at hlen
    omega

end Con

/-! ### Paths -/

variable {g g' : GraphI} {b : Blossom} {p p' : Pairing} {base : Nat}

theorem rotateToHead_ok (hg : g.Lawful) {sid : Nat} (hsid : sid ∈ g.nodes) (v u : List Nat) (fuel : Nat)
    (hm : ∀ x ∈ u ++ v, x ∈ g.nodes) (hc : Cyclic g (u ++ v)) (hf : v.length < fuel)
    (ht : (∃ t ∈ v, g.Adj sid t) ∨ ∃ t, (u ++ v).head? = some t ∧ g.Adj sid t) :
    ∃ c l, rotateToHead g sid fuel (u ++ v) = .ok (c :: l) ∧ (c :: l).Perm (u ++ v) ∧ Cyclic g (c :: l) ∧
      g.Adj sid c := by
  induction v using List.reverseRecOn generalizing u fuel with
  | nil =>
    obtain ⟨n, rfl⟩ : ∃ n, fuel = n + 1 := ⟨fuel - 1, by simp at hf; omega⟩
    rcases ht with ⟨t, ht, -⟩ | ⟨t, ht, ha⟩
    · simp at ht
    · simp only [List.append_nil] at *
      cases u with
      | nil => simp at ht
      | cons c u =>
        simp at ht; subst ht
        obtain ⟨v, ev, hv⟩ := hg.hasEdge_ok sid c hsid (hm c (by simp))
        refine ⟨c, u, ?_, List.Perm.refl _, hc, ha⟩
        rw [hv.2 ha] at ev
        simp [rotateToHead, vecIndex, ev]
  | append_singleton v x ih =>
    obtain ⟨n, rfl⟩ : ∃ n, fuel = n + 1 := ⟨fuel - 1, by simp at hf; omega⟩
    -- the head
    obtain ⟨c, l, hcl⟩ : ∃ c l, u ++ (v ++ [x]) = c :: l := by
      cases h : u ++ (v ++ [x]) with
      | nil => simp at h
      | cons c l => exact ⟨c, l, rfl⟩
    have hcm : c ∈ g.nodes := hm c (by rw [hcl]; simp)
    obtain ⟨h, eh, hh⟩ := hg.hasEdge_ok sid c hsid hcm
    cases h with
    | true =>
      refine ⟨c, l, ?_, by rw [hcl], by rw [← hcl]; exact hc, hh.1 rfl⟩
      rw [hcl]; simp [rotateToHead, vecIndex, eh]
    | false =>
      have hna : ¬ g.Adj sid c := fun h => by simpa using hh.2 h
      have e : rotateRight1 (u ++ (v ++ [x])) = (x :: u) ++ v := by
        unfold rotateRight1
        rw [← List.append_assoc, List.getLast?_concat]
        simp
      have estep : rotateToHead g sid (n + 1) (u ++ (v ++ [x])) = rotateToHead g sid n ((x :: u) ++ v) := by
        rw [rotateToHead, e]
        have : vecIndex (u ++ (v ++ [x])) 0 = .ok c := by rw [hcl]; rfl
        rw [this, Out.ok_bind, eh, Out.expect_ok, Out.ok_bind]; rfl
      have hperm : ((x :: u) ++ v).Perm (u ++ (v ++ [x])) := by
        have := (List.perm_append_comm (l₁ := [x]) (l₂ := u ++ v))
        simpa using this
      obtain ⟨c', l', e1, e2, e3, e4⟩ := ih (x :: u) n (fun y hy => hm y (hperm.mem_iff.1 hy))
        (by
          have : Cyclic g ((u ++ v) ++ [x]) := by simpa using hc
          simpa using this.swap) (by simp at hf; omega) (by
          rcases ht with ⟨t, ht, ha⟩ | ⟨t, ht, ha⟩
          · rcases List.mem_append.1 ht with ht | ht
            · exact .inl ⟨t, ht, ha⟩
            · simp at ht; subst ht; exact .inr ⟨t, by simp, ha⟩
          · rw [hcl] at ht; simp at ht; subst ht; exact absurd ha hna)
      exact ⟨c', l', by rw [estep]; exact e1, e2.trans hperm, e3, e4⟩

theorem rotateToLast_ok (hg : g.Lawful) {tid : Nat} (htid : tid ∈ g.nodes) (v u : List Nat) (fuel : Nat)
    (hm : ∀ x ∈ u ++ v, x ∈ g.nodes) (hc : Cyclic g (u ++ v)) (hf : v.length ≤ fuel)
    (ht : ∃ t ∈ v, g.Adj t tid) :
    ∃ l c, rotateToLast g tid fuel (u ++ v) = .ok (l ++ [c]) ∧ (l ++ [c]).Perm (u ++ v) ∧ Cyclic g (l ++ [c]) ∧
      g.Adj c tid := by
  induction v using List.reverseRecOn generalizing u fuel with
  | nil => obtain ⟨t, ht, -⟩ := ht; simp at ht
  | append_singleton v x ih =>
    obtain ⟨n, rfl⟩ : ∃ n, fuel = n + 1 := ⟨fuel - 1, by simp at hf; omega⟩
    have hlast : (u ++ (v ++ [x])).getLast? = some x := by rw [← List.append_assoc, List.getLast?_concat]
    obtain ⟨h, eh, hh⟩ := hg.hasEdge_ok x tid (hm x (by simp)) htid
    cases h with
    | true =>
      refine ⟨u ++ v, x, ?_, by simp, by simpa using hc, hh.1 rfl⟩
      simp only [rotateToLast, hlast, eh]; simp
    | false =>
      have hna : ¬ g.Adj x tid := fun h => by simpa using hh.2 h
      have e : rotateRight1 (u ++ (v ++ [x])) = (x :: u) ++ v := by
        unfold rotateRight1
        rw [← List.append_assoc, List.getLast?_concat]
        simp
      have hperm : ((x :: u) ++ v).Perm (u ++ (v ++ [x])) := by
        have := (List.perm_append_comm (l₁ := [x]) (l₂ := u ++ v))
        simpa using this
      obtain ⟨l', c', e1, e2, e3, e4⟩ := ih (x :: u) n (fun y hy => hm y (hperm.mem_iff.1 hy))
        (by
          have : Cyclic g ((u ++ v) ++ [x]) := by simpa using hc
          simpa using this.swap) (by simp at hf; omega) (by
          obtain ⟨t, ht, ha⟩ := ht
          rcases List.mem_append.1 ht with ht | ht
          · exact ⟨t, ht, ha⟩
          · simp at ht; subst ht; exact absurd ha hna)
      refine ⟨l', c', ?_, e2.trans hperm, e3, e4⟩
      rw [rotateToLast, hlast, e]
      simp only [eh, Out.expect_ok, Out.ok_bind]
      exact e1

theorem pushUntil_ok (hg : g.Lawful) {tid : Nat} (htid : tid ∈ g.nodes) (bl out : List Nat)
    (hm : ∀ x ∈ bl, x ∈ g.nodes) (ht : ∃ t ∈ bl, g.Adj t tid) :
    ∃ l c r, bl = l ++ c :: r ∧ pushUntil g tid bl out = .ok (out ++ (l ++ [c])) ∧ g.Adj c tid := by
  induction bl generalizing out with
  | nil => obtain ⟨t, ht, -⟩ := ht; simp at ht
  | cons x bl ih =>
    obtain ⟨h, eh, hh⟩ := hg.hasEdge_ok x tid (hm x (by simp)) htid
    cases h with
    | true => exact ⟨[], x, bl, rfl, by simp [pushUntil, eh], hh.1 rfl⟩
    | false =>
      have hna : ¬ g.Adj x tid := fun h => by simpa using hh.2 h
      obtain ⟨l, c, r, e1, e2, e3⟩ := ih (out ++ [x]) (fun y hy => hm y (by simp [hy])) (by
        obtain ⟨t, ht, ha⟩ := ht
        rcases List.mem_cons.1 ht with rfl | ht
        · exact absurd ha hna
        · exact ⟨t, ht, ha⟩)
      refine ⟨x :: l, c, r, by rw [e1]; rfl, ?_, e3⟩
      rw [pushUntil, eh]
      simp only [Out.expect_ok, Out.ok_bind]
      rw [if_neg (by simp), e2]; simp

/-- A path: at least one node, none twice, each next to the one before. -/
structure IsPath (g : GraphI) (l : List Nat) : Prop where
  ne : l ≠ []
  nodup : l.Nodup
  chain : l.IsChain g.Adj
  mem : ∀ x ∈ l, x ∈ g.nodes

theorem liftThrough_ok (hg : g.Lawful) {bp left right : List Nat} {sid tid fuel : Nat}
    (hnd : bp.Nodup) (hm : ∀ x ∈ bp, x ∈ g.nodes) (hc : Cyclic g bp) (hf : bp.length < fuel)
    (hl : (left ++ [sid]).IsChain g.Adj) (hr : (tid :: right).IsChain g.Adj)
    (hlr : ((left ++ [sid]) ++ tid :: right).Nodup) (hmem : ∀ x ∈ (left ++ [sid]) ++ tid :: right, x ∈ g.nodes)
    (hout : ∀ x ∈ (left ++ [sid]) ++ tid :: right, x ∉ bp)
    (hs : ∃ t ∈ bp, g.Adj sid t) (ht : ∃ t ∈ bp, g.Adj t tid) :
    ∃ l, liftThrough fuel bp (left ++ [sid]) (tid :: right) sid tid g = .ok l ∧ IsPath g l := by
  obtain ⟨c, l, e1, e2, e3, e4⟩ := rotateToHead_ok hg (hmem sid (by simp)) bp [] fuel (by simpa using hm)
    (by simpa using hc) hf (.inl hs)
  simp only [List.nil_append] at e1 e2
  have hm' : ∀ x ∈ c :: l, x ∈ g.nodes := fun x hx => hm x (e2.mem_iff.1 hx)
  obtain ⟨t, htb, hta⟩ := ht
  obtain ⟨l1, c1, r1, f1, f2, f3⟩ := pushUntil_ok hg (hmem tid (by simp)) (c :: l) (left ++ [sid]) hm'
    ⟨t, e2.mem_iff.2 htb, hta⟩
  refine ⟨(left ++ [sid]) ++ (l1 ++ [c1]) ++ tid :: right, ?_, ?_⟩
  · unfold liftThrough
    rw [e1, Out.ok_bind, f2, Out.ok_bind]
  · have hsub : ∀ x, x ∈ l1 ++ [c1] → x ∈ bp := by
      intro x hx
      refine e2.mem_iff.1 ?_
      rw [f1]; simp only [List.mem_append, List.mem_cons, List.not_mem_nil, or_false] at hx ⊢
      tauto
    have hnd1 : (l1 ++ [c1]).Nodup := by
      have := e2.nodup_iff.2 hnd
      rw [f1] at this
      have e : l1 ++ c1 :: r1 = (l1 ++ [c1]) ++ r1 := by simp
      rw [e] at this
      exact (List.nodup_append.1 this).1
    refine ⟨by simp, ?_, ?_, ?_⟩
    · have hlr' := List.nodup_append.1 hlr
      rw [List.append_assoc]
      refine List.nodup_append.2 ⟨hlr'.1, ?_, ?_⟩
      · refine List.nodup_append.2 ⟨hnd1, hlr'.2.1, ?_⟩
        intro x hx y hy e
        exact hout y (List.mem_append_right _ hy) (e ▸ hsub x hx)
      · intro x hx y hy e
        rcases List.mem_append.1 hy with hy | hy
        · exact hout x (List.mem_append_left _ hx) (e ▸ hsub y hy)
        · exact hlr'.2.2 x hx y hy e
    · have hch : (l1 ++ [c1]).IsChain g.Adj := by
        have := e3.chain
        rw [f1] at this
        exact (List.isChain_split.1 this).1
      have hhead : (l1 ++ [c1]).head? = some c := by
        cases l1 with
        | nil => simp at f1; simp [f1.1]
        | cons y l1 => simp at f1; simp [f1.1]
      rw [List.isChain_append, List.isChain_append]
      refine ⟨⟨hl, hch, ?_⟩, hr, ?_⟩
      · intro x hx y hy
        rw [List.getLast?_concat] at hx; rw [hhead] at hy
        simp at hx hy; subst hx hy; exact e4
      · intro x hx y hy
        rw [← List.append_assoc, List.getLast?_concat] at hx
        simp at hx hy; subst hx hy; exact f3
    · intro x hx
      rcases List.mem_append.1 hx with hx | hx
      · rcases List.mem_append.1 hx with hx | hx
        · exact hmem x (List.mem_append_left _ hx)
        · exact hm x (hsub x hx)
      · exact hmem x (List.mem_append_right _ hx)

theorem Con.chain_out (h : Con g p b base g' p') {l : List Nat} (hn : l.Nodup) (hid : b.id ∉ l)
    (hc : l.IsChain g'.Adj) : l.IsChain g.Adj := by
  induction l with
  | nil => exact .nil
  | cons x l ih =>
    cases l with
    | nil => exact .singleton _
    | cons y l =>
      rw [List.isChain_cons_cons] at hc ⊢
      rw [List.nodup_cons] at hn
      refine ⟨h.adj_out ?_ ?_ ?_ hc.1, ih hn.2 (fun h => hid (List.mem_cons_of_mem _ h)) hc.2⟩
      · rintro rfl; exact hn.1 (by simp)
      · rintro rfl; exact hid (by simp)
      · rintro rfl; exact hid (by simp)

/-- `lift` turns a path of the contracted graph into a path of the original one, and ends. -/
theorem lift_ok (h : Con g p b base g' p') (hcyc : Cyclic g b.path) {path : List Nat} (hp : IsPath g' path)
    {fuel : Nat} (hf : b.path.length < fuel) : ∃ l, b.lift fuel path g = .ok l ∧ IsPath g l := by
  have hBm : ∀ x ∈ b.path, x ∈ g.nodes := h.flower.sub
  unfold lift
  cases hi : path.findIdx? (fun pid => pid == b.id) with
  | none =>
    rw [List.findIdx?_eq_none_iff] at hi
    have hid : b.id ∉ path := fun hm => by simpa using hi _ hm
    exact ⟨path, rfl, hp.ne, hp.nodup, h.chain_out hp.nodup hid hp.chain, fun x hx =>
      (h.out_of_ne (hp.mem x hx) (fun e => hid (e ▸ hx))).1⟩
  | some index =>
    rw [List.findIdx?_eq_some_iff_getElem] at hi
    obtain ⟨hlt, hget, -⟩ := hi
    simp only [beq_iff_eq] at hget
    have hsplit : path = path.take index ++ b.id :: path.drop (index + 1) := by
      conv_lhs => rw [← List.take_append_drop index path, List.drop_eq_getElem_cons hlt, hget]
    generalize hL : path.take index = left at hsplit
    generalize hR : path.drop (index + 1) = right at hsplit
    have hnd := hp.nodup
    rw [hsplit] at hnd
    have hnd' := List.nodup_append.1 hnd
    have hnd'' := List.nodup_cons.1 hnd'.2.1
    have hidL : b.id ∉ left := fun hm => hnd'.2.2 _ hm _ (by simp) rfl
    have hidR : b.id ∉ right := hnd''.1
    have hch := hp.chain
    rw [hsplit, List.isChain_append] at hch
    have hchL := h.chain_out hnd'.1 hidL hch.1
    have hchR := h.chain_out hnd''.2 hidR hch.2.1.tail
    have hLo : ∀ x ∈ left, x ∈ g.nodes ∧ x ∉ b.path := fun x hx =>
      h.out_of_ne (hp.mem x (by rw [hsplit]; simp [hx])) (fun e => hidL (e ▸ hx))
    have hRo : ∀ x ∈ right, x ∈ g.nodes ∧ x ∉ b.path := fun x hx =>
      h.out_of_ne (hp.mem x (by rw [hsplit]; simp [hx])) (fun e => hidR (e ▸ hx))
    have hlast : ∀ sid, left.getLast? = some sid → ∃ t ∈ b.path, g.Adj sid t := by
      intro sid hs
      have hsl : sid ∈ left := List.mem_of_getLast? hs
      have hne : sid ≠ b.id := fun e => hidL (e ▸ hsl)
      have hadj := hch.2.2 sid hs b.id (by simp)
      obtain ⟨t, ht, ha⟩ := h.adj_id hne (h.lawful'.adj_symm _ _ hadj)
      exact ⟨t, ht, h.lawful.adj_symm _ _ ha⟩
    have hfirst : ∀ tid, right.head? = some tid → ∃ t ∈ b.path, g.Adj t tid := by
      intro tid ht
      cases right with
      | nil => simp at ht
      | cons y right =>
        simp at ht; subst ht
        exact h.adj_id (fun e => hidR (by simp [e])) (List.isChain_cons_cons.1 hch.2.1).1
    simp only [hL, hR]
    rcases List.eq_nil_or_concat left with hl | ⟨left', sid, hl⟩
    · cases hr : right with
      | nil =>
        refine ⟨b.path, by simp [hl], ?_, h.flower.nodup, hcyc.chain, hBm⟩
        exact List.ne_nil_of_mem h.flower.base_mem
      | cons tid right' =>
        subst hr; subst hl
        simp only [List.isEmpty_nil, List.isEmpty_cons, Bool.not_true, Bool.not_false, Bool.and_false,
          Bool.false_and, Bool.and_true, if_true, Bool.false_eq_true, if_false]
        obtain ⟨l, c, e1, e2, e3, e4⟩ := rotateToLast_ok h.lawful (hRo tid (by simp)).1 b.path [] fuel
          (by simpa using hBm) (by simpa using hcyc) (by omega) (hfirst tid rfl)
        simp only [List.nil_append] at e1 e2
        refine ⟨(l ++ [c]) ++ tid :: right', ?_, by simp, ?_, ?_, ?_⟩
        · simp only [liftBlossomRight, vecIndex, List.getElem?_cons_zero, Out.ok_bind, e1]
        · refine List.nodup_append.2 ⟨e2.nodup_iff.2 h.flower.nodup, hnd''.2, ?_⟩
          intro x hx y hy e
          exact (hRo y hy).2 (e ▸ e2.mem_iff.1 hx)
        · rw [List.isChain_append]
          refine ⟨e3.chain, hchR, ?_⟩
          intro x hx y hy
          rw [List.getLast?_concat] at hx
          simp at hx hy; subst hx hy; exact e4
        · intro x hx
          rcases List.mem_append.1 hx with hx | hx
          · exact hBm x (e2.mem_iff.1 hx)
          · exact (hRo x hx).1
    · rw [List.concat_eq_append] at hl
      have hgl : left.getLast? = some sid := by rw [hl, List.getLast?_concat]
      have hle : left.isEmpty = false := by rw [hl]; simp
      cases hr : right with
      | nil =>
        subst hr
        simp only [hle, List.isEmpty_nil, Bool.false_and, Bool.not_false, Bool.true_and, if_true, Bool.false_eq_true,
          if_false]
        obtain ⟨c, l, e1, e2, e3, e4⟩ := rotateToHead_ok h.lawful (hLo sid (List.mem_of_getLast? hgl)).1 b.path [] fuel
          (by simpa using hBm) (by simpa using hcyc) hf (.inl (hlast sid hgl))
        simp only [List.nil_append] at e1 e2
        refine ⟨left ++ c :: l, ?_, by simp, ?_, ?_, ?_⟩
        · simp only [liftLeftBlossom, hgl, e1, Out.ok_bind]
        · refine List.nodup_append.2 ⟨hnd'.1, e2.nodup_iff.2 h.flower.nodup, ?_⟩
          intro x hx y hy e
          exact (hLo x hx).2 (e ▸ e2.mem_iff.1 hy)
        · rw [List.isChain_append]
          refine ⟨hchL, e3.chain, ?_⟩
          intro x hx y hy
          rw [hgl] at hx
          simp at hx hy; subst hx hy; exact e4
        · intro x hx
          rcases List.mem_append.1 hx with hx | hx
          · exact (hLo x hx).1
          · exact hBm x (e2.mem_iff.1 hx)
      | cons tid right' =>
        subst hr
        simp only [hle, List.isEmpty_cons, Bool.false_and, Bool.not_false, Bool.and_false, Bool.false_eq_true,
          if_false]
        have hlr : (left ++ tid :: right').Nodup := by
          refine List.nodup_append.2 ⟨hnd'.1, hnd''.2, ?_⟩
          intro x hx y hy
          exact hnd'.2.2 x hx y (by simp only [List.mem_cons] at hy ⊢; tauto)
        have hmem : ∀ x ∈ left ++ tid :: right', x ∈ g.nodes ∧ x ∉ b.path := by
          intro x hx
          rcases List.mem_append.1 hx with hx | hx
          · exact hLo x hx
          · exact hRo x hx
        have hs := hlast sid hgl
        have ht := hfirst tid rfl
        have through : ∀ bp : List Nat, bp.Perm b.path → Cyclic g bp →
            ∃ l, liftThrough fuel bp left (tid :: right') sid tid g = .ok l ∧ IsPath g l := by
          intro bp hperm hc
          have hL' := hl
          rw [hl]
          refine liftThrough_ok h.lawful (hperm.nodup_iff.2 h.flower.nodup)
            (fun x hx => hBm x (hperm.mem_iff.1 hx)) hc (by rw [hperm.length_eq]; exact hf)
            (by rw [← hl]; exact hchL) hchR (by rw [← hl]; exact hlr)
            (by rw [← hl]; exact fun x hx => (hmem x hx).1)
            (by rw [← hl]; exact fun x hx hb => (hmem x hx).2 (hperm.mem_iff.1 hb)) ?_ ?_
          · obtain ⟨t, h1, h2⟩ := hs; exact ⟨t, hperm.mem_iff.2 h1, h2⟩
          · obtain ⟨t, h1, h2⟩ := ht; exact ⟨t, hperm.mem_iff.2 h1, h2⟩
        obtain ⟨l, e, hl1⟩ := through b.path (List.Perm.refl _) hcyc
        obtain ⟨l', e', hl2⟩ := through b.path.reverse (List.reverse_perm _) (hcyc.reverse h.lawful)
        simp only [liftLeftBlossomRight, hgl, vecIndex, List.getElem?_cons_zero, Out.ok_bind, e]
        split
        · exact ⟨l, rfl, hl1⟩
        · exact ⟨l', e', hl2⟩

end Blossom
end Gamma
