import Verif.Proofs.Kinds
/-
Components with at most two neighbors in excess of two: a blossom that is on a path, and not at its end, takes them all, so
that what is left of the component is a ring or a line.
-/
namespace Gamma
open Pairing Blossom

variable {g g' : GraphI} {b : Blossom} {p p' : Pairing} {base : Nat} {pf : Platform}

/-! ### Counting neighbors -/

/-- The neighbors other than the node itself. -/
def GraphI.oth (g : GraphI) (x : Nat) : List Nat := (g.nbr x).filter (fun y => y != x)

theorem mem_oth {x y : Nat} : y ∈ g.oth x ↔ g.Adj x y ∧ y ≠ x := by
  unfold GraphI.oth
  rw [List.mem_filter, GraphI.mem_nbr]; simp

theorem oth_nodup (hg : g.Lawful) (x : Nat) : (g.oth x).Nodup := by
  rw [List.nodup_iff_count_le_one]
  intro y
  by_cases h : y = x
  · have : y ∉ g.oth x := fun hm => (mem_oth.1 hm).2 h
    rw [List.count_eq_zero.2 this]; simp
  · unfold GraphI.oth GraphI.nbr
    cases e : g.neighbors x with
    | ok l =>
      simp only
      refine le_trans ?_ (hg.neighbor_once x y l e (Ne.symm h))
      exact List.Sublist.count_le _ List.filter_sublist
    | _ => simp

theorem le_others {m : List Nat} {x : Nat} (hn : m.Nodup) (h : ∀ y ∈ m, g.Adj x y ∧ y ≠ x) : m.length ≤ g.others x :=
  (hn.subperm (l₂ := g.oth x) (fun y hy => mem_oth.2 (h y hy))).length_le

/-- Every node of the component of `v` has at most two neighbors: it is a ring or a line. -/
def GraphI.RingAt (g : GraphI) (v : Nat) : Prop := ∀ x, g.simple.Reachable v x → g.others x ≤ 2

theorem GraphI.RingAt.move {v u : Nat} (h : g.RingAt v) (hr : g.simple.Reachable v u) : g.RingAt u := fun x hx => h x (hr.trans hx)

/-- Each node of a cycle of three nodes or more has two neighbors on it. -/
theorem Cyclic.two_nbrs {B : List Nat} (hg : g.Lawful) (hc : Cyclic g B) (hn : B.Nodup) (h3 : 3 ≤ B.length) {t : Nat} (ht : t ∈ B) :
    ∃ c d, c ∈ B ∧ d ∈ B ∧ c ≠ d ∧ g.Adj t c ∧ g.Adj t d ∧ c ≠ t ∧ d ≠ t := by
  obtain ⟨l, r, rfl⟩ := List.append_of_mem ht
  have h1 := hc.swap
  have h2 : (t :: r ++ l).Nodup := (List.nodup_append_comm).1 hn
  unfold Cyclic at h1
  rw [List.cons_append] at h1 h2
  have h4 : ∀ x, x ∈ r ++ l → x ∈ l ++ t :: r := by intro x; simp; tauto
  have hlen : (r ++ l).length + 1 = (l ++ t :: r).length := by simp; omega
  generalize r ++ l = m at h1 h2 h4 hlen
  cases m with
  | nil => simp at hlen h3; omega
  | cons c k =>
    rcases List.eq_nil_or_concat k with rfl | ⟨k', d, rfl⟩
    · simp at hlen h3; omega
    · rw [List.concat_eq_append] at *
      rw [List.isChain_append] at h1
      refine ⟨c, d, h4 c (by simp), h4 d (by simp), ?_, (List.isChain_cons_cons.1 h1.1).1, ?_, ?_, ?_⟩
      · rintro rfl; simp at h2
      · refine hg.adj_symm _ _ (h1.2.2 d ?_ t rfl)
        rw [← List.cons_append, ← List.cons_append, List.getLast?_concat]; simp
      · rintro rfl; simp at h2
      · rintro rfl; simp at h2

/-! ### The edges that leave a blossom -/

/-- The edges that leave `B`, as pairs of a node of `B` and one outside. -/
def GraphI.leaving (g : GraphI) (B : List Nat) : List (Nat × Nat) :=
  B.flatMap (fun t => ((g.oth t).filter (fun y => !B.contains y)).map (fun y => (t, y)))

theorem mem_leaving {B : List Nat} {t y : Nat} : (t, y) ∈ g.leaving B ↔ t ∈ B ∧ y ∉ B ∧ g.Adj t y := by
  unfold GraphI.leaving
  simp only [List.mem_flatMap, List.mem_map, List.mem_filter, mem_oth, Prod.mk.injEq]
  constructor
  · rintro ⟨t', h1, y', ⟨⟨h2, h3⟩, h4⟩, rfl, rfl⟩
    exact ⟨h1, by simpa using h4, h2⟩
  · rintro ⟨h1, h2, h3⟩
    exact ⟨t, h1, y, ⟨⟨h3, fun e => h2 (e ▸ h1)⟩, by simpa using h2⟩, rfl, rfl⟩

theorem leaving_le {B : List Nat} (hg : g.Lawful) (hc : Cyclic g B) (hn : B.Nodup) (h3 : 3 ≤ B.length) :
    (g.leaving B).length ≤ (B.map (fun x => g.others x - 2)).sum := by
  unfold GraphI.leaving
  rw [List.length_flatMap]
  refine List.sum_le_sum (fun t ht => ?_)
  rw [List.length_map]
  obtain ⟨c, d, hcB, hdB, hcd, h1, h2, h5, h6⟩ := hc.two_nbrs hg hn h3 ht
  have := le_others (g := g) (x := t) (m := c :: d :: (g.oth t).filter (fun y => !B.contains y)) (by
    refine List.nodup_cons.2 ⟨?_, List.nodup_cons.2 ⟨?_, (oth_nodup hg t).filter _⟩⟩
    · intro hm
      rcases List.mem_cons.1 hm with h | h
      · exact hcd h
      · simpa [hcB] using (List.mem_filter.1 h).2
    · intro h
      simpa [hdB] using (List.mem_filter.1 h).2) (by
    intro y hy
    simp only [List.mem_cons] at hy
    rcases hy with rfl | rfl | hy
    · exact ⟨h1, h5⟩
    · exact ⟨h2, h6⟩
    · exact mem_oth.1 (List.mem_filter.1 hy).1)
  simp only [List.length_cons] at this
  omega

section
variable (h : Con g p b base g' p')
include h

theorem Blossom.Con.others_id : g'.others b.id ≤ (g.leaving b.path).length := by
  rw [← List.length_map (f := Prod.snd) (as := g.leaving b.path)]
  refine ((oth_nodup h.lawful' b.id).subperm (fun y hy => ?_)).length_le
  obtain ⟨h1, h2⟩ := mem_oth.1 hy
  obtain ⟨t, ht, ha⟩ := h.adj_id h2 h1
  exact List.mem_map.2 ⟨(t, y), mem_leaving.2 ⟨ht, (h.out_of_ne (h.lawful'.adj_mem _ _ h1) h2).2, ha⟩, rfl⟩

theorem Blossom.Con.others_id_one (h1 : b.path = [base]) : g'.others b.id ≤ g.others base := by
  refine le_others (g := g) (m := g'.oth b.id) (oth_nodup h.lawful' b.id) (fun y hy => ?_)
  obtain ⟨h2, h3⟩ := mem_oth.1 hy
  obtain ⟨t, ht, ha⟩ := h.adj_id h3 h2
  have ho := (h.out_of_ne (h.lawful'.adj_mem _ _ h2) h3).2
  rw [h1] at ht ho
  simp at ht ho; subst ht
  exact ⟨ha, ho⟩

theorem Blossom.Con.others_out {x : Nat} (hx : x ∉ b.path) (hxi : x ≠ b.id) : g'.others x ≤ g.others x := by
  have key : ∀ y ∈ g'.oth x, ∃ a, kap b a = y ∧ g.Adj x a ∧ a ≠ x := by
    intro y hy
    obtain ⟨h1, h2⟩ := mem_oth.1 hy
    obtain ⟨a, c, hac, e1, e2⟩ := (h.adj' _ _ h2.symm).1 h1
    have := h.preimage hxi e1
    subst this
    exact ⟨c, e2, hac, fun e => h2 (by rw [← e2, e, kap_out hx])⟩
  choose! f hf using key
  have hn : ((g'.oth x).map f).Nodup := by
    refine List.Nodup.map_on ?_ (oth_nodup h.lawful' x)
    intro y hy z hz e
    rw [← (hf y hy).1, ← (hf z hz).1, e]
  have := le_others (g := g) (x := x) hn (by
    intro a ha
    obtain ⟨y, hy, rfl⟩ := List.mem_map.1 ha
    exact (hf y hy).2)
  rw [List.length_map] at this
  exact this

variable (hcyc : Cyclic g b.path) (hodd : b.path.length % 2 = 1)
include hcyc hodd

theorem Blossom.Con.one_or_three : b.path = [base] ∨ 3 ≤ b.path.length := by
  by_cases h3 : 3 ≤ b.path.length
  · exact .inr h3
  · left
    obtain ⟨z, hz⟩ := List.length_eq_one_iff.1 (show b.path.length = 1 by omega)
    have := h.flower.base_mem
    rw [hz] at this ⊢
    simp at this; rw [this]

theorem Blossom.Con.reach_out {v : Nat} (hv : v ∈ g.nodes) {x : Nat} (hx : g'.simple.Reachable (kap b v) x) (hxi : x ≠ b.id) :
    x ∈ g.nodes ∧ x ∉ b.path ∧ g.simple.Reachable v x := by
  obtain ⟨h1, h2⟩ := h.out_of_ne (reach_mem h.lawful' hx (h.kap_mem hv)) hxi
  exact ⟨h1, h2, h.reach_down hcyc hv h1 (by rw [kap_out h2]; exact hx)⟩

theorem Blossom.Con.reach_blossom {v : Nat} (hv : v ∈ g.nodes) (hx : g'.simple.Reachable (kap b v) b.id) {y : Nat} (hy : y ∈ b.path) :
    g.simple.Reachable v y :=
  h.reach_down hcyc hv (h.flower.sub y hy) (by rw [kap_in hy]; exact hx)

/-- Contraction, at the blossom: the excess of the rest is at most that of the rest. -/
theorem Blossom.Con.slim_rest {v : Nat} (hv : v ∈ g.nodes) (hS : g.SlimAt v) (hid : g'.simple.Reachable (kap b v) b.id)
    {l : List Nat} (hn : l.Nodup) (hl : ∀ x ∈ l, g'.simple.Reachable (kap b v) x ∧ x ≠ b.id) :
    (b.path.map (fun x => g.others x - 2)).sum + (l.map (fun x => g'.others x - 2)).sum ≤ 2 := by
  have hout : ∀ x ∈ l, x ∈ g.nodes ∧ x ∉ b.path ∧ g.simple.Reachable v x := fun x hx =>
    h.reach_out hcyc hodd hv (hl x hx).1 (hl x hx).2
  have h1 := hS (b.path ++ l) (by
    refine List.nodup_append.2 ⟨h.flower.nodup, hn, ?_⟩
    rintro x hx y hy rfl
    exact (hout x hy).2.1 hx) (by
    intro x hx
    rcases List.mem_append.1 hx with hx | hx
    · exact h.reach_blossom hcyc hodd hv hid hx
    · exact (hout x hx).2.2)
  rw [List.map_append, List.sum_append] at h1
  refine le_trans (Nat.add_le_add_left (List.sum_le_sum (fun x hx => ?_)) _) h1
  have := h.others_out (hout x hx).2.1 (hl x hx).2
  omega

theorem Blossom.Con.slimAt {v : Nat} (hv : v ∈ g.nodes) (hS : g.SlimAt v) : g'.SlimAt (kap b v) := by
  intro l hn hl
  by_cases hid : b.id ∈ l
  · have hp := List.perm_cons_erase hid
    rw [(hp.map _).sum_eq, List.map_cons, List.sum_cons]
    have hne : ∀ x ∈ l.erase b.id, g'.simple.Reachable (kap b v) x ∧ x ≠ b.id := fun x hx =>
      ⟨hl x (List.mem_of_mem_erase hx), (hn.mem_erase_iff.1 hx).1⟩
    have h1 := h.slim_rest hcyc hodd hv hS (hl _ hid) (hn.erase _) hne
    refine le_trans (Nat.add_le_add_right ?_ _) h1
    rcases h.one_or_three hcyc hodd with e | h3
    · have := h.others_id_one e
      rw [e]; simp; omega
    · have h4 := h.others_id
      have h5 := leaving_le h.lawful hcyc h.flower.nodup h3
      omega
  · have hout : ∀ x ∈ l, x ≠ b.id := fun x hx e => hid (e ▸ hx)
    refine le_trans (List.sum_le_sum (fun x hx => ?_)) (hS l hn (fun x hx => (h.reach_out hcyc hodd hv (hl x hx) (hout x hx)).2.2))
    have := h.others_out (h.reach_out hcyc hodd hv (hl x hx) (hout x hx)).2.1 (hout x hx)
    omega

theorem Blossom.Con.ring_leaving {v : Nat} (hv : v ∈ b.path) (hR : g.RingAt v) (h3 : 3 ≤ b.path.length) : g.leaving b.path = [] := by
  have h1 := leaving_le h.lawful hcyc h.flower.nodup h3
  have h2 : (b.path.map (fun x => g.others x - 2)).sum = 0 := by
    rw [List.sum_eq_zero_iff_forall_eq_nat]
    intro n hn
    obtain ⟨x, hx, rfl⟩ := List.mem_map.1 hn
    have := hR x (chain_pair h.lawful hcyc.chain hv hx)
    omega
  exact List.length_eq_zero_iff.1 (by omega)

theorem Blossom.Con.ringAt {v : Nat} (hv : v ∈ g.nodes) (hR : g.RingAt v) : g'.RingAt (kap b v) := by
  intro x hx
  by_cases hxi : x = b.id
  · subst hxi
    have hb := h.reach_blossom hcyc hodd hv hx h.flower.base_mem
    rcases h.one_or_three hcyc hodd with e | h3
    · exact (h.others_id_one e).trans (hR base hb)
    · have := h.others_id
      rw [h.ring_leaving hcyc hodd h.flower.base_mem (hR.move hb) h3] at this
      simp at this; omega
  · obtain ⟨-, h2, h4⟩ := h.reach_out hcyc hodd hv hx hxi
    exact (h.others_out h2 hxi).trans (hR x h4)

/-- A blossom with two neighbors or more takes all the excess: what remains is a ring or a line. -/
theorem Blossom.Con.ring_of_slim {v : Nat} (hv : v ∈ b.path) (hS : g.SlimAt v) (h3 : 3 ≤ b.path.length) (h2 : 2 ≤ g'.others b.id) :
    g'.RingAt b.id ∧ (g.leaving b.path).length ≤ 2 := by
  have hvn := h.flower.sub v hv
  have hk : kap b v = b.id := kap_in hv
  have h4 := h.others_id
  have h5 := leaving_le h.lawful hcyc h.flower.nodup h3
  have h6 := h.slim_rest hcyc hodd hvn hS (by rw [hk]) (l := []) (by simp) (by simp)
  simp at h6
  refine ⟨fun x hx => ?_, by omega⟩
  by_cases hxi : x = b.id
  · subst hxi; omega
  · have := h.slim_rest hcyc hodd hvn hS (by rw [hk]) (l := [x]) (by simp) (by simp [hk, hx, hxi])
    simp at this
    omega

omit hcyc hodd in
/-- If at most two edges leave the blossom, to two different nodes, each of these has one neighbor in it. -/
theorem Blossom.Con.leaving_unique (hE : (g.leaving b.path).length ≤ 2) (h2 : 2 ≤ g'.others b.id) {x c d : Nat}
    (hx : x ∉ b.path) (hc : c ∈ b.path) (hd : d ∈ b.path) (h3 : g.Adj x c) (h4 : g.Adj x d) : c = d := by
  by_contra hne
  -- another neighbor
  obtain ⟨y, hy, hyx⟩ : ∃ y ∈ g'.oth b.id, y ≠ x := by
    by_contra hno
    push Not at hno
    have : (g'.oth b.id).length ≤ [x].length :=
      ((oth_nodup h.lawful' b.id).subperm (fun y hy => by rw [hno y hy]; simp)).length_le
    have h2' : 2 ≤ (g'.oth b.id).length := h2
    simp at this; omega
  obtain ⟨hya, hyi⟩ := mem_oth.1 hy
  obtain ⟨t, ht, ha⟩ := h.adj_id hyi hya
  have hyo := (h.out_of_ne (h.lawful'.adj_mem _ _ hya) hyi).2
  have : [(c, x), (d, x), (t, y)].length ≤ (g.leaving b.path).length := by
    refine List.Subperm.length_le (List.Nodup.subperm ?_ ?_)
    · simp only [List.nodup_cons, List.mem_cons, Prod.mk.injEq, List.not_mem_nil, or_false, not_or]
      refine ⟨⟨fun e => hne e.1, fun e => hyx e.2.symm⟩, fun e => hyx e.2.symm, by simp, by simp⟩
    · intro e he
      simp only [List.mem_cons, List.not_mem_nil, or_false] at he
      rcases he with rfl | rfl | rfl
      · exact mem_leaving.2 ⟨hc, hx, h.lawful.adj_symm _ _ h3⟩
      · exact mem_leaving.2 ⟨hd, hx, h.lawful.adj_symm _ _ h4⟩
      · exact mem_leaving.2 ⟨ht, hyo, ha⟩
  simp at this
  omega

end

/-! ### Paths whose inner nodes are paired along them -/

/-- Every inner node of the path is paired with one of the two nodes beside it. -/
def Tidy (p : Pairing) (path : List Nat) : Prop :=
  ∀ l x y z r, path = l ++ x :: y :: z :: r → p.get y = some x ∨ p.get y = some z

theorem Tidy.of_augmenting (hs : p.Symmetric) {l : List Nat} (h : p.Augmenting l) : Tidy p l := by
  rintro l1 a x c r rfl
  rcases Nat.mod_two_eq_zero_or_one l1.length with h0 | h0
  · right
    have := h.mates (l1.length / 2) x c (by
      rw [show 2 * (l1.length / 2) + 1 = l1.length + 1 by omega]; simp) (by
      rw [show 2 * (l1.length / 2) + 2 = l1.length + 2 by omega]; simp)
    exact mate_eq_ok.1 this
  · left
    have := h.mates (l1.length / 2) a x (by
      rw [show 2 * (l1.length / 2) + 1 = l1.length by omega]; simp) (by
      rw [show 2 * (l1.length / 2) + 2 = l1.length + 1 by omega]; simp)
    exact hs.get_get (mate_eq_ok.1 this)

theorem Tidy.off (h : Con g p b base g' p') {path : List Nat} (hT : Tidy p' path) (hid : b.id ∉ path) : Tidy p path := by
  rintro l x y z r rfl
  have hne : ∀ u ∈ l ++ x :: y :: z :: r, u ≠ b.id := fun u hu e => hid (e ▸ hu)
  exact (hT l x y z r rfl).imp (h.get_out (hne y (by simp)) (hne x (by simp))) (h.get_out (hne y (by simp)) (hne z (by simp)))

theorem Tidy.one (h : Con g p b base g' p') (h1 : b.path = [base]) {left right : List Nat} (hp : IsPath g' (left ++ b.id :: right))
    (hT : Tidy p' (left ++ b.id :: right)) : Tidy p (left ++ [base] ++ right) := by
  have hnd' := List.nodup_append.1 hp.nodup
  have hidL : b.id ∉ left := fun hm => hnd'.2.2 _ hm _ (by simp) rfl
  have hidR : b.id ∉ right := (List.nodup_cons.1 hnd'.2.1).1
  have hout : ∀ x, x ∈ left ∨ x ∈ right → x ∈ g.nodes ∧ x ∉ b.path := by
    intro x hx
    refine h.out_of_ne (hp.mem x (by simp; tauto)) ?_
    rintro rfl; tauto
  have hb : kap b base = b.id := kap_in h.flower.base_mem
  have hm : (left ++ [base] ++ right).map (kap b) = left ++ b.id :: right := by
    have mid : ∀ L : List Nat, (∀ x ∈ L, x ∉ b.path) → L.map (kap b) = L := by
      intro L hL
      conv_rhs => rw [← List.map_id L]
      exact List.map_congr_left (fun x hx => kap_out (hL x hx))
    rw [List.map_append, List.map_append, mid left (fun x hx => (hout x (.inl hx)).2), mid right (fun x hx => (hout x (.inr hx)).2)]
    simp [hb]
  have hmem : ∀ x ∈ left ++ [base] ++ right, x ∈ g.nodes := by
    intro x hx
    simp at hx
    rcases hx with hx | rfl | hx
    · exact (hout x (.inl hx)).1
    · exact h.flower.sub _ h.flower.base_mem
    · exact (hout x (.inr hx)).1
  have inj : ∀ u w, u ∈ g.nodes → w ∈ g.nodes → kap b u = kap b w → u = w := by
    intro u w hu hw e
    rcases (h.free.kap_eq hu hw).1 e with e | ⟨e1, e2⟩
    · exact e
    · rw [h1] at e1 e2; simp at e1 e2; rw [e1, e2]
  have down : ∀ u w, u ∈ g.nodes → w ∈ g.nodes → p'.get (kap b u) = some (kap b w) → p.get u = some w := by
    intro u w hu hw e
    obtain ⟨-, a, c, hac, e1, e2⟩ := (h.get' _ _).1 e
    rw [← inj a u (h.matches_.mem_left h.lawful hac) hu e1, ← inj c w (h.matches_.mem_right h.lawful hac) hw e2]
    exact hac
  intro l x y z r e
  rw [e] at hm hmem
  have := hT (l.map (kap b)) (kap b x) (kap b y) (kap b z) (r.map (kap b)) (by rw [← hm]; simp)
  exact this.imp (down _ _ (hmem y (by simp)) (hmem x (by simp))) (down _ _ (hmem y (by simp)) (hmem z (by simp)))

/-! ### Lifting -/

/-- `lift` when the blossom is at an end of the path, or is a single node: all of it is put into the path. -/
theorem fine_whole {s : List Nat} (h : Con g p b base g' p') (hF : Found g p b.path base s) {left right l : List Nat}
    (hG : Fine g' p' (left ++ b.id :: right)) (hw : left = [] ∨ right = [] ∨ b.path = [base])
    {fuel : Nat} (hf : b.path.length < fuel) (e : b.lift fuel (left ++ b.id :: right) g = .ok l) :
    Fine g p l ∧ (b.path = [base] → l = left ++ [base] ++ right) := by
  have hcyc := hF.cyclic
  obtain ⟨mid, e4, hp4, hm0, hm1, hm2, -⟩ := lift_spec (b := b) (g := g) (g' := g')
    ⟨h.lawful, h.free, h.flower.nodup, h.flower.sub, h.lawful', h.nodes', h.adj'⟩ hcyc (List.ne_nil_of_mem h.flower.base_mem) hG.isPath hf
  rw [e] at e4
  injection e4 with e4
  subst e4
  have hone : b.path = [base] → mid = [base] := by
    intro hz
    have hmn : mid.Nodup := (List.nodup_append.1 (List.nodup_append.1 hp4.nodup).1).2.1
    rw [hz] at hm1
    match mid, hm0, hm1, hmn with
    | [], hm0, _, _ => exact absurd rfl hm0
    | [a], _, hm1, _ => have := hm1 a (by simp); simp at this; rw [this]
    | a :: c :: _, _, hm1, hmn =>
      have h5 := hm1 a (by simp)
      have h6 := hm1 c (by simp)
      simp at h5 h6; subst h5 h6
      simp at hmn
  have hmid : mid.length = b.path.length ∧ ∀ x, x ∈ mid ↔ x ∈ b.path := by
    rcases or_assoc.2 hw with hw | hz
    · have hr := hm2 hw
      exact ⟨hr.perm.length_eq, fun x => hr.perm.mem_iff⟩
    · rw [hone hz, hz]; simp
  refine ⟨fine_of_arc h hG hp4 (by rw [hmid.1]; exact hF.odd) ((hmid.2 _).2 h.flower.base_mem) (fun x hx hne => ?_),
    fun hz => by rw [hone hz]⟩
  obtain ⟨y, hy, e⟩ := h.flower.inner x ((hmid.2 x).1 hx) hne
  exact ⟨y, (hmid.2 y).2 hy, e⟩

/-- `lift` when the blossom is inside the path, paired along it, and each node outside has at most one neighbor in it. -/
theorem fine_through {s : List Nat} (h : Con g p b base g' p') (hF : Found g p b.path base s) {left right l : List Nat} {tid : Nat}
    (hG : Fine g' p' (left ++ b.id :: tid :: right)) (hleft : left ≠ [])
    (hU : ∀ x c d, x ∉ b.path → c ∈ b.path → d ∈ b.path → g.Adj x c → g.Adj x d → c = d)
    (hM : ∀ L x y r, left ++ b.id :: tid :: right = L ++ x :: b.id :: y :: r → p'.get b.id = some x ∨ p'.get b.id = some y)
    {fuel : Nat} (hf : b.path.length < fuel) (e : b.lift fuel (left ++ b.id :: tid :: right) g = .ok l) : Fine g p l := by
  have hc := hF.cyclic
  have ho := hF.odd
  have hB0 : b.path ≠ [] := List.ne_nil_of_mem h.flower.base_mem
  have hl : IsPath g l := by
    obtain ⟨l', e', hl⟩ := lift_ok h hc hG.isPath hf
    rw [e] at e'; injection e' with e'; subst e'; exact hl
  have hidl : b.id ∉ left := fun hm => (List.nodup_append.1 hG.isPath.nodup).2.2 _ hm _ (by simp) rfl
  have hidx : (left ++ b.id :: tid :: right).findIdx? (fun pid => pid == b.id) = some left.length := by
    have h0 : left.findIdx? (fun pid => pid == b.id) = none := by
      rw [List.findIdx?_eq_none_iff]
      intro x hx
      rw [beq_eq_false_iff_ne]
      rintro rfl
      exact hidl hx
    rw [List.findIdx?_append, h0]
    simp [List.findIdx?_cons]
  unfold Blossom.lift at e
  rw [hidx] at e
  have e1 : (left ++ b.id :: tid :: right).take left.length = left := by simp
  have e2 : (left ++ b.id :: tid :: right).drop (left.length + 1) = tid :: right := by
    rw [List.drop_append, List.drop_of_length_le (by omega)]; simp
  simp only [e1, e2] at e
  obtain ⟨left', sid, hl0⟩ : ∃ left' sid, left = left' ++ [sid] := by
    rcases List.eq_nil_or_concat left with h0 | ⟨l', s', h0⟩
    · exact absurd h0 hleft
    · exact ⟨l', s', by rw [h0, List.concat_eq_append]⟩
  have hgl : left.getLast? = some sid := by rw [hl0, List.getLast?_concat]
  have hle : left.isEmpty = false := by rw [hl0]; simp
  have hnd := hG.isPath.nodup
  have hnd' := List.nodup_append.1 hnd
  have hnd'' := List.nodup_cons.1 hnd'.2.1
  have hidL : b.id ∉ left := fun hm => hnd'.2.2 _ hm _ (by simp) rfl
  have hidR : b.id ∉ tid :: right := hnd''.1
  have hch := hG.isPath.chain
  rw [List.isChain_append] at hch
  have hchL := h.chain_out hnd'.1 hidL hch.1
  have hchR := h.chain_out hnd''.2 hidR hch.2.1.tail
  have hmem : ∀ x ∈ left ++ tid :: right, x ≠ b.id ∧ x ∈ g.nodes ∧ x ∉ b.path := by
    intro x hx
    have hne : x ≠ b.id := by
      rintro rfl
      rcases List.mem_append.1 hx with hx | hx
      · exact hidL hx
      · exact hidR hx
    exact ⟨hne, h.out_of_ne (hG.isPath.mem x (by simp at hx ⊢; tauto)) hne⟩
  have hsm : sid ∈ left ++ tid :: right := by rw [hl0]; simp
  have htm : tid ∈ left ++ tid :: right := by simp
  have hs : ∃ t ∈ b.path, g.Adj sid t := by
    have hadj := hch.2.2 sid hgl b.id (by simp)
    obtain ⟨t, ht, ha⟩ := h.adj_id (hmem sid hsm).1 (h.lawful'.adj_symm _ _ hadj)
    exact ⟨t, ht, h.lawful.adj_symm _ _ ha⟩
  have ht : ∃ t ∈ b.path, g.Adj t tid := h.adj_id (hmem tid htm).1 (List.isChain_cons_cons.1 hch.2.1).1
  have hlr : (left ++ tid :: right).Nodup := by
    refine List.nodup_append.2 ⟨hnd'.1, hnd''.2, ?_⟩
    intro x hx y hy
    exact hnd'.2.2 x hx y (by simp only [List.mem_cons] at hy ⊢; tauto)
  have through : ∀ bp : List Nat, bp.Perm b.path → Cyclic g bp →
      ∃ l, Blossom.liftThrough fuel bp left (tid :: right) sid tid g = .ok l ∧ IsPath g l := by
    intro bp hperm hc
    rw [hl0]
    refine liftThrough_ok h.lawful (hperm.nodup_iff.2 h.flower.nodup)
      (fun x hx => h.flower.sub x (hperm.mem_iff.1 hx)) hc (by rw [hperm.length_eq]; exact hf)
      (by rw [← hl0]; exact hchL) hchR (by rw [← hl0]; exact hlr)
      (by rw [← hl0]; exact fun x hx => (hmem x hx).2.1)
      (by rw [← hl0]; exact fun x hx hb => (hmem x hx).2.2 (hperm.mem_iff.1 hb)) ?_ ?_
    · obtain ⟨t, h1, h2⟩ := hs; exact ⟨t, hperm.mem_iff.2 h1, h2⟩
    · obtain ⟨t, h1, h2⟩ := ht; exact ⟨t, hperm.mem_iff.2 h1, h2⟩
  -- the ends of an arc
  have ends : ∀ arc : List Nat, arc ≠ [] → (∀ x ∈ arc, x ∈ b.path) → IsPath g (left ++ arc ++ tid :: right) →
      ∃ c d, arc.head? = some c ∧ arc.getLast? = some d ∧ c ∈ b.path ∧ d ∈ b.path ∧ g.Adj sid c ∧ g.Adj tid d := by
    intro arc hne hsub hp
    obtain ⟨d, hd⟩ : ∃ d, arc.getLast? = some d := ⟨_, List.getLast?_eq_some_getLast hne⟩
    obtain ⟨c, hcc⟩ : ∃ c, arc.head? = some c := by
      cases arc with
      | nil => exact absurd rfl hne
      | cons c arc => exact ⟨c, rfl⟩
    have hch := hp.chain
    rw [List.isChain_append, List.isChain_append] at hch
    refine ⟨c, d, hcc, hd, hsub c (List.mem_of_head? hcc), hsub d (List.mem_of_getLast? hd),
      hch.1.2.2 sid hgl c hcc, h.lawful.adj_symm _ _ (hch.2.2 d ?_ tid rfl)⟩
    rw [List.getLast?_append, hd]; rfl
  -- the base is at one end
  have atEnd : ∀ (arc : List Nat) c d, arc.head? = some c → arc.getLast? = some d → c ∈ b.path → d ∈ b.path → g.Adj sid c →
      g.Adj tid d → arc.head? = some base ∨ arc.getLast? = some base := by
    intro arc c d h1 h2 h3 h4 h5 h6
    have hsplit : left ++ b.id :: tid :: right = left' ++ sid :: b.id :: tid :: right := by rw [hl0]; simp
    rcases hM _ _ _ _ hsplit with h7 | h7
    · left
      have h8 := h.get_of_id (hmem sid hsm).1 h7
      rw [h1, hU sid c base (hmem sid hsm).2.2 h3 h.flower.base_mem h5 (h.lawful.adj_symm _ _ (h.matches_.adj' h8))]
    · right
      have h8 := h.get_of_id (hmem tid htm).1 h7
      rw [h2, hU tid d base (hmem tid htm).2.2 h4 h.flower.base_mem h6 (h.lawful.adj_symm _ _ (h.matches_.adj' h8))]
  obtain ⟨q, hq1, hq2⟩ := hF.rot
  have hrev : b.path.reverse.IsRotated (base :: q.reverse) := by
    have h1 := hq1.reverse
    rw [List.reverse_cons] at h1
    have h2 := List.isRotated_append (l := q.reverse) (l' := [base])
    exact h1.trans (by simpa using h2)
  have fin : ∀ arc : List Nat, arc ≠ [] → (∀ x ∈ arc, x ∈ b.path) → IsPath g (left ++ arc ++ tid :: right) →
      arc.length % 2 = 1 → (∃ rest, (arc ++ rest).IsRotated b.path ∨ (arc ++ rest).IsRotated b.path.reverse) →
      Fine g p (left ++ arc ++ tid :: right) := by
    intro arc hne hsub hp hodd hr
    obtain ⟨c, d, h1, h2, h3, h4, h5, h6⟩ := ends arc hne hsub hp
    have he := atEnd arc c d h1 h2 h3 h4 h5 h6
    obtain ⟨rest, hr⟩ := hr
    have hcl : base ∈ arc ∧ ∀ x ∈ arc, x ≠ base → ∃ y ∈ arc, p.get x = some y := by
      rcases hr with hr | hr
      · exact arc_closed h.flower.nodup hq1 hq2 hr hodd he
      · exact arc_closed (List.nodup_reverse.2 h.flower.nodup) hrev hq2.reverse hr hodd he
    exact fine_of_arc h hG hp hodd hcl.1 hcl.2
  obtain ⟨f1, ef1, hp1⟩ := through b.path (List.Perm.refl _) hc
  obtain ⟨a1, r1, hr1, hn1, rfl⟩ := liftThrough_form ef1 hB0
  have hs1 : ∀ x ∈ a1, x ∈ b.path := fun x hx => (IsRotated.mem hr1).1 (by simp [hx])
  have hev := hG.even
  simp only [hle, List.isEmpty_cons, Bool.false_and, Bool.not_false, Bool.and_false, Bool.false_eq_true,
    if_false, Blossom.liftLeftBlossomRight, hgl, vecIndex, List.getElem?_cons_zero, Out.ok_bind, ef1] at e
  split at e
  · rename_i hpar
    simp at e
    rw [← List.append_assoc] at e
    subst e
    refine fin a1 hn1 hs1 hp1 ?_ ⟨r1, .inl hr1⟩
    simp at hpar hev; omega
  · rename_i hpar
    obtain ⟨a2, r2, hr2, hn2, rfl⟩ := liftThrough_form e (by simpa using hB0)
    have hs2 : ∀ x ∈ a2, x ∈ b.path := fun x hx => List.mem_reverse.1 ((IsRotated.mem hr2).1 (by simp [hx]))
    refine fin a2 hn2 hs2 hl ?_ ⟨r2, .inr hr2⟩
    obtain ⟨c, d, h1, h2, h3, h4, h5, h6⟩ := ends a1 hn1 hs1 hp1
    obtain ⟨c', d', h1', h2', h3', h4', h5', h6'⟩ := ends a2 hn2 hs2 hl
    have ec := hU sid c c' (hmem sid hsm).2.2 h3 h3' h5 h5'
    have ed := hU tid d d' (hmem tid htm).2.2 h4 h4' h6 h6'
    subst ec ed
    have ha1 : a1.length % 2 = 0 := by simp at hpar hev; omega
    have hcd : c ≠ d := by
      rintro rfl
      have hnda : a1.Nodup := (List.nodup_append.1 (List.nodup_append.1 hp1.nodup).1).2.1
      cases a1 with
      | nil => exact hn1 rfl
      | cons z a1 =>
        simp at h1; subst h1
        cases a1 with
        | nil => simp at ha1
        | cons y a1 =>
          rw [List.getLast?_cons_cons] at h2
          exact (List.nodup_cons.1 hnda).1 (List.mem_of_getLast? h2)
    have := arcs_length h.flower.nodup hr1 hr2 h1 h1' h2 h2' hcd
    omega

/-- A path through a contracted blossom of three nodes or more leaves a ring or a line at once. -/
theorem Blossom.Con.ring_no_path (h : Con g p b base g' p') (hcyc : Cyclic g b.path) (hodd : b.path.length % 2 = 1) {v : Nat}
    (hv : v ∈ b.path) (hR : g.RingAt v) (h3 : 3 ≤ b.path.length) {left right : List Nat} (hp : IsPath g' (left ++ b.id :: right))
    (hlen : 2 ≤ (left ++ b.id :: right).length) : False := by
  obtain ⟨y, hy, hya⟩ : ∃ y, y ≠ b.id ∧ g'.Adj b.id y := by
    have hn := List.nodup_append.1 hp.nodup
    have hch := hp.chain
    rw [List.isChain_append] at hch
    cases right with
    | cons y r => exact ⟨y, fun e => (List.nodup_cons.1 hn.2.1).1 (by simp [e]), (List.isChain_cons_cons.1 hch.2.1).1⟩
    | nil =>
      rcases List.eq_nil_or_concat left with rfl | ⟨l', y, rfl⟩
      · simp at hlen
      · rw [List.concat_eq_append] at *
        exact ⟨y, hn.2.2 y (by simp) b.id (by simp), h.lawful'.adj_symm _ _ (hch.2.2 y (by simp) b.id (by simp))⟩
  have h1 := h.others_id
  rw [h.ring_leaving hcyc hodd hv hR h3] at h1
  have h2 := le_others (g := g') (x := b.id) (m := [y]) (by simp) (by simp [hya, hy])
  simp at h1 h2
  omega

/-- `lift` in a component with at most two neighbors in excess of two. -/
theorem fine_slim {s : List Nat} (h : Con g p b base g' p') (hF : Found g p b.path base s) {v : Nat} (hv : v ∈ b.path)
    (hS : g.SlimAt v) {left right l : List Nat} (hG : Fine g' p' (left ++ b.id :: right))
    (hT : g'.RingAt b.id → Tidy p' (left ++ b.id :: right)) {fuel : Nat} (hf : b.path.length < fuel)
    (e : b.lift fuel (left ++ b.id :: right) g = .ok l) : Fine g p l := by
  by_cases hw : left = [] ∨ right = [] ∨ b.path = [base]
  · exact (fine_whole h hF hG hw hf e).1
  push Not at hw
  obtain ⟨hl, hr, h1⟩ := hw
  have h3 := (h.one_or_three hF.cyclic hF.odd).resolve_left h1
  cases right with
  | nil => exact absurd rfl hr
  | cons tid right =>
    have hn := List.nodup_append.1 hG.isPath.nodup
    have hch := hG.isPath.chain
    rw [List.isChain_append] at hch
    obtain ⟨sid, hs⟩ : ∃ sid, left.getLast? = some sid := ⟨_, List.getLast?_eq_some_getLast hl⟩
    have hsm := List.mem_of_getLast? hs
    have hsi : sid ≠ b.id := hn.2.2 sid hsm b.id (by simp)
    have hst : sid ≠ tid := hn.2.2 sid hsm tid (by simp)
    have hti : tid ≠ b.id := fun e => (List.nodup_cons.1 hn.2.1).1 (by simp [e])
    have h2 := le_others (g := g') (x := b.id) (m := [sid, tid]) (by simpa using hst) (by
      intro y hy
      simp only [List.mem_cons, List.not_mem_nil, or_false] at hy
      rcases hy with rfl | rfl
      · exact ⟨h.lawful'.adj_symm _ _ (hch.2.2 _ hs b.id (by simp)), hsi⟩
      · exact ⟨(List.isChain_cons_cons.1 hch.2.1).1, hti⟩)
    obtain ⟨hR, hE⟩ := h.ring_of_slim hF.cyclic hF.odd hv hS h3 h2
    exact fine_through h hF hG hl (fun x c d hx hc hd h4 h5 => h.leaving_unique hE h2 hx hc hd h4 h5)
      (fun L x y r e => hT hR L x b.id y r e) hf e

theorem Blossom.Con.easy (h : Con g p b base g' p') (hcyc : Cyclic g b.path) (ho : b.path.length % 2 = 1) (hM : g.EasyParts) :
    g'.EasyParts := by
  intro z hz
  obtain ⟨x, hx, rfl⟩ := h.onto hcyc hz
  exact (hM x hx).imp (h.cliqueAt hcyc hx) (Or.imp (h.apartAt hcyc ho hx) (Or.imp (h.narrowAt hcyc hx) (h.slimAt hcyc ho hx)))

end Gamma
