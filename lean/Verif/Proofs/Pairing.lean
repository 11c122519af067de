import Verif.Spec
import Verif.Proofs.Basic
import Mathlib.Data.List.Nodup
/-
`Pairing`: the mate function, `pair`, `augment`, `edges`.
-/
namespace Gamma
namespace Pairing

/-- The mate of `x`, if any. -/
def get (p : Pairing) (x : Nat) : Option Nat := p.pairs.get x

theorem mate_eq_ok {p : Pairing} {x y : Nat} : p.mate x = .ok y ↔ p.get x = some y := by
  unfold mate get
  cases p.pairs.get x <;> simp

theorem mate_of_none {p : Pairing} {x : Nat} (h : p.get x = none) : p.mate x = .panic "missing node" := by
  unfold mate; unfold get at h; simp [h]

theorem mate_of_some {p : Pairing} {x y : Nat} (h : p.get x = some y) : p.mate x = .ok y := mate_eq_ok.2 h

theorem hasNode_iff {p : Pairing} {x : Nat} : p.hasNode x = true ↔ ∃ y, p.get x = some y := by
  unfold hasNode get HMap.containsKey
  rw [Option.isSome_iff_exists]

theorem hasNode_false {p : Pairing} {x : Nat} : p.hasNode x = false ↔ p.get x = none := by
  unfold hasNode get HMap.containsKey
  simp

theorem hasNode_eq (p : Pairing) (x : Nat) : p.hasNode x = (p.get x).isSome := rfl

theorem mate_eq_iff {p q : Pairing} {x y : Nat} : p.mate x = q.mate y ↔ p.get x = q.get y := by
  unfold mate get
  cases p.pairs.get x <;> cases q.pairs.get y <;> simp

theorem get_insert_pairing (p : Pairing) (s t x : Nat) : (p.insert s t).get x =
    match p.get s with
    | some old => if old = t then p.get x else if x = old then none else if x = s then some t else p.get x
    | none => if x = s then some t else p.get x := by
  unfold insert get
  cases h : p.pairs.get s with
  | none => simp [HMap.get_insert]
  | some old =>
    by_cases ho : old = t
    · simp [ho]
    · simp only [beq_iff_eq, ho, if_false]
      rw [HMap.get_remove, HMap.get_insert]

theorem keys_insert {p : Pairing} (h : (p.pairs.map Prod.fst).Nodup) (s t : Nat) :
    ((p.insert s t).pairs.map Prod.fst).Nodup := by
  unfold insert
  split
  · split
    · exact h
    · exact HMap.nodup_remove (HMap.nodup_insert h s t) _
  · exact HMap.nodup_insert h s t

theorem keys_pair {p : Pairing} (h : (p.pairs.map Prod.fst).Nodup) (s t : Nat) :
    ((p.pair s t).pairs.map Prod.fst).Nodup := keys_insert (keys_insert h s t) t s

section
variable {p : Pairing}

theorem Symmetric.get_get (h : p.Symmetric) {x y : Nat} (e : p.get x = some y) : p.get y = some x :=
  mate_eq_ok.1 (h.mate_mate x y (mate_eq_ok.2 e)).2

theorem Symmetric.ne (h : p.Symmetric) {x y : Nat} (e : p.get x = some y) : x ≠ y :=
  (h.mate_mate x y (mate_eq_ok.2 e)).1

theorem symmetric_of (hn : (p.pairs.map Prod.fst).Nodup)
    (h : ∀ x y, p.get x = some y → x ≠ y ∧ p.get y = some x) : p.Symmetric :=
  ⟨hn, fun x y e => by rw [mate_eq_ok] at *; exact h x y e⟩

theorem symmetric_new : Pairing.new.Symmetric := symmetric_of (by simp [new]) (by simp [new, get])

/-- `pair` as an update of the mate function. -/
theorem Symmetric.get_pair (h : p.Symmetric) {s t : Nat} (hne : s ≠ t) (x : Nat) :
    (p.pair s t).get x =
      if x = s then some t else if x = t then some s
      else if p.get x = some s ∨ p.get x = some t then none else p.get x := by
  unfold pair
  have hs : ∀ x, p.get x = some s → p.get s = some x := fun x e => h.get_get e
  have ht : ∀ x, p.get x = some t → p.get t = some x := fun x e => h.get_get e
  have hs' : ∀ x, p.get s = some x → p.get x = some s := fun x e => h.get_get e
  have ht' : ∀ x, p.get t = some x → p.get x = some t := fun x e => h.get_get e
  rw [get_insert_pairing, get_insert_pairing, get_insert_pairing]
  cases e1 : p.get s with
  | none =>
    have n1 : ∀ x, p.get x ≠ some s := fun x e => by rw [hs x e] at e1; simp at e1
    cases e2 : p.get t with
    | none =>
      have n2 : ∀ x, p.get x ≠ some t := fun x e => by rw [ht x e] at e2; simp at e2
      simp only [hne.symm, if_false]
      simp [n1, n2]
      by_cases a : x = s
      · subst a; simp [hne]
      · simp [a]
    | some b =>
      have e3 := ht' b e2
      have hb : b ≠ t := fun e => h.ne e2 e.symm
      simp only [hne.symm, if_false]
      by_cases hbs : b = s
      · subst hbs; rw [e3] at e1; simp at e1
      · simp only [hbs, if_false, n1, false_or]
        by_cases a1 : x = s
        · subst a1; simp [Ne.symm hbs, hne]
        · by_cases a2 : x = t
          · subst a2; simp [Ne.symm hb, a1]
          · by_cases a3 : x = b
            · subst a3; simp [a1, a2, e3]
            · simp [a1, a2, a3]
              intro e; rw [ht x e] at e2; simp at e2; exact absurd e2 a3
  | some a =>
    have e3 := hs' a e1
    have ha : a ≠ s := fun e => h.ne e1 e.symm
    by_cases hat : a = t
    · subst hat
      simp only [if_true, e3]
      by_cases a1 : x = s
      · subst a1; simp [e1]
      · by_cases a2 : x = a
        · subst a2; simp [e3, a1]
        · simp [a1, a2]
          rintro (e | e)
          · rw [hs x e] at e1; simp at e1; exact absurd e1 a2
          · rw [ht x e] at e3; simp at e3; exact absurd e3 a1
    · simp only [hat, if_false, hne.symm, Ne.symm hat]
      cases e2 : p.get t with
      | none =>
        have n2 : ∀ x, p.get x ≠ some t := fun x e => by rw [ht x e] at e2; simp at e2
        simp only [n2, or_false]
        by_cases a1 : x = s
        · subst a1; simp [hne, Ne.symm ha]
        · by_cases a2 : x = t
          · subst a2; simp [a1]
          · by_cases a3 : x = a
            · subst a3; simp [a1, a2, e3]
            · simp [a1, a2, a3]
              intro e; rw [hs x e] at e1; simp at e1; exact absurd e1 a3
      | some b =>
        have e4 := ht' b e2
        have hb : b ≠ t := fun e => h.ne e2 e.symm
        by_cases hbs : b = s
        · subst hbs; rw [e4] at e1; simp at e1; exact absurd e1.symm hat
        · simp only [hbs, if_false]
          by_cases a1 : x = s
          · subst a1; simp [Ne.symm hbs, hne, Ne.symm ha]
          · by_cases a2 : x = t
            · subst a2; simp [Ne.symm hb, a1]
            · by_cases a3 : x = b
              · subst a3; simp [a1, a2, e4]
              · by_cases a4 : x = a
                · subst a4; simp [a1, a2, a3, e3]
                · simp [a1, a2, a3, a4]
                  rintro (e | e)
                  · rw [hs x e] at e1; simp at e1; exact absurd e1 a4
                  · rw [ht x e] at e2; simp at e2; exact absurd e2 a3

theorem Symmetric.pair (h : p.Symmetric) {s t : Nat} (hne : s ≠ t) : (p.pair s t).Symmetric := by
  refine symmetric_of (keys_pair h.keys_nodup s t) ?_
  intro x y e
  rw [h.get_pair hne] at e ⊢
  split at e
  · rename_i e1; simp at e; subst e1 e; simp [hne, hne.symm]
  · rename_i n1
    split at e
    · rename_i e1; simp at e; subst e1 e; simp [hne.symm]
    · rename_i n2
      split at e
      · simp at e
      · rename_i n3
        push Not at n3
        rw [e] at n3
        have h1 := h.get_get e
        have y1 : y ≠ s := fun h => n3.1 (by rw [h])
        have y2 : y ≠ t := fun h => n3.2 (by rw [h])
        refine ⟨h.ne e, ?_⟩
        simp [y1, y2, h1, n1, n2]

/-! ### edges and order -/

theorem mem_pairs (h : p.Symmetric) {a b : Nat} : (a, b) ∈ p.pairs ↔ p.get a = some b :=
  (HMap.get_iff_mem h.keys_nodup).symm

theorem Symmetric.pairs_nodup (h : p.Symmetric) : p.pairs.Nodup := h.keys_nodup.of_map

theorem mem_edges {ord : HashOrder} (ho : ord.Valid) (h : p.Symmetric) {a b : Nat} :
    (a, b) ∈ p.edges ord ↔ a < b ∧ p.get a = some b := by
  unfold edges
  rw [List.mem_filter, (ho p.pairs).mem_iff, mem_pairs h]
  simp [and_comm]

theorem edges_nodup {ord : HashOrder} (ho : ord.Valid) (h : p.Symmetric) : (p.edges ord).Nodup := by
  unfold edges
  exact ((ho p.pairs).nodup_iff.2 h.pairs_nodup).filter _

theorem edges_disjoint {ord : HashOrder} (ho : ord.Valid) (h : p.Symmetric) :
    (p.edges ord).Pairwise (fun e f => e.1 ≠ f.1 ∧ e.1 ≠ f.2 ∧ e.2 ≠ f.1 ∧ e.2 ≠ f.2) := by
  have := edges_nodup ho h
  rw [List.nodup_iff_pairwise_ne] at this
  refine List.Pairwise.imp_of_mem ?_ this
  rintro ⟨a, b⟩ ⟨c, d⟩ h1 h2 hne
  rw [mem_edges ho h] at h1 h2
  simp only
  refine ⟨?_, ?_, ?_, ?_⟩
  · rintro rfl; rw [h1.2] at h2; simp at h2; simp [h2.2] at hne
  · rintro rfl
    have := h.get_get h2.2; rw [h1.2] at this; simp at this; omega
  · rintro rfl
    have := h.get_get h1.2; rw [h2.2] at this; simp at this; omega
  · rintro rfl
    have h3 := h.get_get h1.2; have h4 := h.get_get h2.2
    rw [h3] at h4; simp at h4; simp [h4] at hne

theorem swap_perm (h : p.Symmetric) : (p.pairs.map Prod.swap).Perm p.pairs := by
  rw [List.perm_ext_iff_of_nodup (h.pairs_nodup.map Prod.swap_injective) h.pairs_nodup]
  rintro ⟨a, b⟩
  rw [List.mem_map, mem_pairs h]
  constructor
  · rintro ⟨⟨c, d⟩, h1, h2⟩
    simp at h2; obtain ⟨rfl, rfl⟩ := h2
    exact h.get_get ((mem_pairs h).1 h1)
  · intro e
    exact ⟨(b, a), (mem_pairs h).2 (h.get_get e), rfl⟩

theorem order_eq {ord : HashOrder} (ho : ord.Valid) (h : p.Symmetric) :
    p.order = 2 * (p.edges ord).length := by
  unfold order edges
  rw [((ho p.pairs).filter _).length_eq]
  have h1 : (p.pairs.filter (fun e => decide (e.1 < e.2))).length =
      p.pairs.countP (fun e => decide (e.1 < e.2)) := List.countP_eq_length_filter.symm
  have h2 : p.pairs.countP (fun e => decide (e.1 < e.2)) = p.pairs.countP (fun e => !decide (e.1 < e.2)) := by
    rw [← (swap_perm h).countP_eq, List.countP_map]
    apply List.countP_congr
    rintro ⟨a, b⟩ hm
    have := h.ne ((mem_pairs h).1 hm)
    simp; omega
  have h3 := List.length_eq_countP_add_countP (l := p.pairs) (p := fun e => decide (e.1 < e.2))
  rw [h1]
  have h4 : p.pairs.countP (fun a => decide ¬(decide (a.1 < a.2)) = true) =
      p.pairs.countP (fun e => !decide (e.1 < e.2)) := by
    apply List.countP_congr; intro a _; simp
  omega

/-! ### augment -/

theorem augmentLoop_spec {p : Pairing} (h : p.Symmetric) (path : List Nat) (hn : path.Nodup) (he : path.length % 2 = 0) :
    ∃ q, augmentLoop path p = .ok q ∧ q.Symmetric ∧
      (∀ i a b, path[2 * i]? = some a → path[2 * i + 1]? = some b → q.get a = some b) ∧
      (∀ x, x ∉ path → q.get x = match p.get x with
        | some y => if y ∈ path then none else some y
        | none => none) := by
  match path with
  | [] => exact ⟨p, rfl, h, by simp, fun x _ => by cases p.get x <;> simp⟩
  | [a] => simp at he
  | a :: b :: rest =>
    rw [List.nodup_cons, List.nodup_cons] at hn
    have hab : a ≠ b := by intro e; exact hn.1 (by simp [e])
    have har : a ∉ rest := fun h => hn.1 (by simp [h])
    obtain ⟨q, e, hq, h1, h2⟩ := augmentLoop_spec (h.pair hab) rest hn.2.2 (by simp at he; omega)
    refine ⟨q, by rw [augmentLoop]; exact e, hq, ?_, ?_⟩
    · intro i x y hx hy
      cases i with
      | zero =>
        simp at hx hy; subst hx hy
        rw [h2 a har, h.get_pair hab]
        simp [hn.2.1]
      | succ i =>
        have e1 : 2 * (i + 1) = (2 * i + 1) + 1 := by omega
        rw [e1] at hx hy
        simp at hx hy
        exact h1 i x y hx hy
    · intro x hx
      simp only [List.mem_cons, not_or] at hx
      rw [h2 x hx.2.2, h.get_pair hab]
      simp only [hx.1, hx.2.1, if_false]
      cases hy : p.get x with
      | none => simp
      | some y =>
        by_cases c1 : y = a
        · simp [c1]
        · by_cases c2 : y = b
          · simp [c2]
          · simp [c1, c2]

theorem augment_spec (h : p.Symmetric) (path : List Nat) (hn : path.Nodup) (he : path.length % 2 = 0) :
    ∃ q, p.augment path = .ok q ∧ q.Symmetric ∧
      (∀ i a b, path[2 * i]? = some a → path[2 * i + 1]? = some b → q.get a = some b) ∧
      (∀ x, x ∉ path → q.get x = match p.get x with
        | some y => if y ∈ path then none else some y
        | none => none) := by
  unfold augment
  simp only [he]
  exact augmentLoop_spec h path hn he

theorem augment_odd (p : Pairing) (path : List Nat) (he : path.length % 2 = 1) :
    p.augment path = .panic "even path augmentation" := by
  simp [augment, he]

theorem augmentLoop_ok (p : Pairing) (path : List Nat) (he : path.length % 2 = 0) :
    ∃ q, augmentLoop path p = .ok q := by
  match path with
  | [] => exact ⟨p, rfl⟩
  | [a] => simp at he
  | a :: b :: rest =>
    rw [augmentLoop]
    exact augmentLoop_ok _ rest (by simp at he; omega)

theorem augment_even (p : Pairing) (path : List Nat) (he : path.length % 2 = 0) :
    ∃ q, p.augment path = .ok q := by
  unfold augment; simp only [he]; exact augmentLoop_ok p path he

theorem augmentLoop_keys {p q : Pairing} (hp : (p.pairs.map Prod.fst).Nodup) (path : List Nat)
    (h : augmentLoop path p = .ok q) : (q.pairs.map Prod.fst).Nodup := by
  match path with
  | [] => simp [augmentLoop] at h; subst h; exact hp
  | [a] => simp [augmentLoop] at h
  | a :: b :: rest => rw [augmentLoop] at h; exact augmentLoop_keys (keys_pair hp a b) rest h

theorem augment_keys {q : Pairing} (hp : (p.pairs.map Prod.fst).Nodup) (path : List Nat)
    (h : p.augment path = .ok q) : (q.pairs.map Prod.fst).Nodup := by
  unfold augment at h
  split at h
  · simp at h
  · exact augmentLoop_keys hp path h

/-- On an augmenting path, nodes off the path keep their mates. -/
theorem Augmenting.mate_on_path {path : List Nat} (h : p.Symmetric) (ha : p.Augmenting path) {x y : Nat}
    (hx : x ∈ path) (e : p.get x = some y) : y ∈ path := by
  obtain ⟨i, hi, rfl⟩ := List.getElem_of_mem hx
  have hev := ha.even
  rcases Nat.mod_two_eq_zero_or_one i with h0 | h1
  · -- even position: the first node, or after its mate
    by_cases hz : i = 0
    · subst hz
      have := ha.first path[0] (by rw [List.head?_eq_getElem?, List.getElem?_eq_getElem hi])
      rw [hasNode_false] at this; rw [this] at e; simp at e
    · obtain ⟨j, rfl⟩ : ∃ j, i = 2 * j + 2 := ⟨i / 2 - 1, by omega⟩
      have := ha.mates j path[2 * j + 1] path[2 * j + 2] (List.getElem?_eq_getElem (by omega))
        (List.getElem?_eq_getElem hi)
      have := h.get_get (mate_eq_ok.1 this)
      rw [e] at this; simp at this
      rw [this]; exact List.getElem_mem _
  · by_cases hz : i + 1 = path.length
    · have := ha.last path[i] (by
        rw [List.getLast?_eq_getElem?]
        have : path.length - 1 = i := by omega
        rw [this, List.getElem?_eq_getElem hi])
      rw [hasNode_false] at this; rw [this] at e; simp at e
    · obtain ⟨j, rfl⟩ : ∃ j, i = 2 * j + 1 := ⟨i / 2, by omega⟩
      have := ha.mates j path[2 * j + 1] path[2 * j + 2] (List.getElem?_eq_getElem hi)
        (List.getElem?_eq_getElem (by omega))
      rw [mate_eq_ok, e] at this; simp at this
      rw [this]; exact List.getElem_mem _

theorem keys_mem {q : Pairing} {x : Nat} : x ∈ q.pairs.map Prod.fst ↔ q.hasNode x = true := by
  rw [← not_iff_not, Bool.not_eq_true, hasNode_false, get, HMap.get_eq_none_iff]

theorem Improving.mate_on_path {path : List Nat} (ha : p.Improving path) {x y : Nat}
    (hx : x ∈ path) (e : p.get x = some y) : y ∈ path := ha.closed x y hx (mate_eq_ok.2 e)

theorem Augmenting.improving {path : List Nat} (h : p.Symmetric) (ha : p.Augmenting path) (hne : path ≠ []) :
    p.Improving path := by
  refine ⟨ha.nodup, ha.even, fun x y hx e => ha.mate_on_path h hx (mate_eq_ok.1 e), ?_⟩
  cases path with
  | nil => exact absurd rfl hne
  | cons a l => exact ⟨a, by simp, ha.first a rfl⟩

/-- Augmenting along an improving path covers exactly the path in addition. -/
theorem Improving.covers {path : List Nat} (h : p.Symmetric) (ha : p.Improving path) {q : Pairing}
    (hq : p.augment path = .ok q) (x : Nat) : q.hasNode x = true ↔ p.hasNode x = true ∨ x ∈ path := by
  obtain ⟨q', e, hs, h1, h2⟩ := augment_spec h path ha.nodup ha.even
  rw [hq] at e; injection e with e; subst e
  have hev := ha.even
  by_cases hx : x ∈ path
  · simp only [hx, or_true, iff_true]
    obtain ⟨i, hi, rfl⟩ := List.getElem_of_mem hx
    rw [hasNode_iff]
    rcases Nat.mod_two_eq_zero_or_one i with h0 | h0
    · obtain ⟨j, rfl⟩ : ∃ j, i = 2 * j := ⟨i / 2, by omega⟩
      exact ⟨_, h1 j _ _ (List.getElem?_eq_getElem hi) (List.getElem?_eq_getElem (by omega))⟩
    · obtain ⟨j, rfl⟩ : ∃ j, i = 2 * j + 1 := ⟨i / 2, by omega⟩
      exact ⟨_, hs.get_get (h1 j _ _ (List.getElem?_eq_getElem (by omega)) (List.getElem?_eq_getElem hi))⟩
  · simp only [hx, or_false, hasNode_iff]
    rw [h2 x hx]
    cases e : p.get x with
    | none => simp
    | some y =>
      have : y ∉ path := fun hy => hx (ha.mate_on_path hy (h.get_get e))
      simp [this]

/-- Augmenting along an augmenting path covers exactly the path in addition. -/
theorem Augmenting.covers {path : List Nat} (h : p.Symmetric) (ha : p.Augmenting path) {q : Pairing}
    (hq : p.augment path = .ok q) (x : Nat) : q.hasNode x = true ↔ p.hasNode x = true ∨ x ∈ path := by
  cases path with
  | nil =>
    obtain ⟨q', e, hs, h1, h2⟩ := augment_spec h [] ha.nodup ha.even
    rw [hq] at e; injection e with e; subst e
    have := h2 x (by simp)
    simp only [hasNode_iff, this]
    cases e : p.get x with
    | none => simp
    | some y => simp
  | cons a l => exact (ha.improving h (by simp)).covers h hq x

/-- At least two more nodes are paired. -/
theorem Improving.order {path : List Nat} (h : p.Symmetric) (ha : p.Improving path)
    {q : Pairing} (hq : p.augment path = .ok q) : p.order + 2 ≤ q.order := by
  obtain ⟨q', e, hs, h1, h2⟩ := augment_spec h path ha.nodup ha.even
  have e' := hq
  rw [e'] at e; injection e with e; subst e
  obtain ⟨a, ha1, ha2⟩ := ha.unpaired
  have hsub : (a :: p.pairs.map Prod.fst).Subperm (q.pairs.map Prod.fst) := by
    refine List.Nodup.subperm ?_ ?_
    · simp only [List.nodup_cons, keys_mem, ha2]
      simpa using h.keys_nodup
    · intro x hx
      rw [keys_mem, ha.covers h hq x]
      rcases List.mem_cons.1 hx with rfl | hx
      · exact .inr ha1
      · exact .inl (keys_mem.1 hx)
  have h3 := hsub.length_le
  have h4 := order_eq (ord := id) (fun _ => .rfl) h
  have h5 := order_eq (ord := id) (fun _ => .rfl) hs
  have h6 : p.pairs.length = p.order := rfl
  have h7 : q.pairs.length = q.order := rfl
  simp at h3
  omega

/-- The number of paired nodes grows by two. -/
theorem Augmenting.order {path : List Nat} (h : p.Symmetric) (ha : p.Augmenting path) (hne : path ≠ [])
    {q : Pairing} (hq : p.augment path = .ok q) : q.order = p.order + 2 := by
  obtain ⟨q', e, hs, h1, h2⟩ := augment_spec h path ha.nodup ha.even
  have e' := hq
  rw [e'] at e; injection e with e; subst e
  have hev := ha.even
  have hlen : 2 ≤ path.length := by
    have := List.length_pos_of_ne_nil hne; omega
  let a := path[0]
  let b := path[path.length - 1]
  have fa : p.hasNode a = false := ha.first a (by rw [List.head?_eq_getElem?]; exact List.getElem?_eq_getElem _)
  have fb : p.hasNode b = false := ha.last b (by rw [List.getLast?_eq_getElem?]; exact List.getElem?_eq_getElem _)
  have hab : a ≠ b := by
    intro e
    have := (List.Nodup.getElem_inj_iff ha.nodup).1 e
    omega
  -- every inner node of the path was covered already
  have inner : ∀ x ∈ path, x ≠ a → x ≠ b → p.hasNode x = true := by
    intro x hx hxa hxb
    obtain ⟨i, hi, rfl⟩ := List.getElem_of_mem hx
    have i0 : i ≠ 0 := by rintro rfl; exact hxa rfl
    have il : i ≠ path.length - 1 := by rintro rfl; exact hxb rfl
    rw [hasNode_iff]
    rcases Nat.mod_two_eq_zero_or_one i with h0 | h0
    · obtain ⟨j, rfl⟩ : ∃ j, i = 2 * j + 2 := ⟨i / 2 - 1, by omega⟩
      have := ha.mates j path[2 * j + 1] path[2 * j + 2] (List.getElem?_eq_getElem (by omega))
        (List.getElem?_eq_getElem hi)
      exact ⟨_, h.get_get (mate_eq_ok.1 this)⟩
    · obtain ⟨j, rfl⟩ : ∃ j, i = 2 * j + 1 := ⟨i / 2, by omega⟩
      have := ha.mates j path[2 * j + 1] path[2 * j + 2] (List.getElem?_eq_getElem hi)
        (List.getElem?_eq_getElem (by omega))
      exact ⟨_, mate_eq_ok.1 this⟩
  have hk : (q.pairs.map Prod.fst).Perm (a :: b :: p.pairs.map Prod.fst) := by
    rw [List.perm_ext_iff_of_nodup hs.keys_nodup]
    · intro x
      rw [keys_mem, ha.covers h hq x]
      simp only [List.mem_cons, keys_mem]
      constructor
      · rintro (hx | hx)
        · exact .inr (.inr hx)
        · by_cases c1 : x = a
          · exact .inl c1
          · by_cases c2 : x = b
            · exact .inr (.inl c2)
            · exact .inr (.inr (inner x hx c1 c2))
      · rintro (rfl | rfl | hx)
        · exact .inr (List.getElem_mem _)
        · exact .inr (List.getElem_mem _)
        · exact .inl hx
    · simp only [List.nodup_cons, List.mem_cons, keys_mem, fa, fb, hab]
      simpa using h.keys_nodup
  have := hk.length_eq
  simp at this
  unfold Pairing.order
  exact this

theorem reachable_symmetric (h : p.Reachable) : p.Symmetric := by
  induction h with
  | new => exact symmetric_new
  | pair p s t _ hne ih => exact ih.pair hne
  | augment p q path _ hn he ih =>
    rcases Nat.mod_two_eq_zero_or_one path.length with h0 | h0
    · obtain ⟨q', e, hq, -⟩ := augment_spec ih path hn h0
      rw [he] at e; injection e with e; subst e; exact hq
    · rw [augment_odd _ _ h0] at he; simp at he

theorem anyReachable_keys (h : p.AnyReachable) : (p.pairs.map Prod.fst).Nodup := by
  induction h with
  | new => simp [new]
  | pair p s t _ ih => exact keys_pair ih s t
  | augment p q path _ he ih => exact augment_keys ih path he

theorem eq_iff {q : Pairing} (hp : (p.pairs.map Prod.fst).Nodup) (hq : (q.pairs.map Prod.fst).Nodup) :
    p.eq q = true ↔ ∀ x, p.get x = q.get x := by
  unfold eq
  simp only [Bool.and_eq_true, beq_iff_eq, List.all_eq_true]
  constructor
  · rintro ⟨hl, hall⟩ x
    have hsub : p.pairs ⊆ q.pairs := by
      rintro ⟨a, b⟩ hm
      exact HMap.mem_of_get (hall _ hm)
    have hperm : p.pairs.Perm q.pairs :=
      (List.subperm_of_subset hp.of_map hsub).perm_of_length_le (by omega)
    apply Option.ext
    intro y
    unfold get
    rw [HMap.get_iff_mem hp, HMap.get_iff_mem hq, hperm.mem_iff]
  · intro h
    constructor
    · have : p.pairs.Perm q.pairs := by
        rw [List.perm_ext_iff_of_nodup hp.of_map hq.of_map]
        rintro ⟨a, b⟩
        rw [← HMap.get_iff_mem hp, ← HMap.get_iff_mem hq]
        have h' := h a
        unfold get at h'
        rw [h']
      exact this.length_eq
    · rintro ⟨a, b⟩ hm
      have := HMap.get_of_mem hp hm
      have h' := h a
      unfold get at h'
      simp only
      rw [← h', this]

end
end Pairing
end Gamma
