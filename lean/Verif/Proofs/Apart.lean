import Verif.Proofs.Arc
/-
Graphs in which no two odd cycles share a node: every path the search finds improves the pairing.
-/
namespace Gamma
open Pairing Blossom

variable {g g' : GraphI} {b : Blossom} {p p' : Pairing} {base : Nat} {S : Nat → Prop}

/-- No two odd cycles share a node of `S`, unless they have the same nodes. -/
def GraphI.ApartOn (g : GraphI) (S : Nat → Prop) : Prop :=
  ∀ C D x y, OddCycle g C → OddCycle g D → x ∈ C → x ∈ D → S x → y ∈ C → y ∈ D

theorem GraphI.OddCyclesApart.on (hA : g.OddCyclesApart) : g.ApartOn (fun _ => True) :=
  fun C D x y hC hD h1 h2 _ h3 => hA C D x y hC hD h1 h2 h3

theorem GraphI.ApartOn.all (hA : g.ApartOn (fun _ => True)) : g.OddCyclesApart :=
  fun C D x y hC hD h1 h2 h3 => hA C D x y hC hD h1 h2 trivial h3

theorem OddCycle.cyclic {C : List Nat} (h : OddCycle g C) : Cyclic g C := by
  unfold Cyclic
  rw [List.isChain_append]
  exact ⟨h.chain, h.chain, fun x hx y hy => h.closes y x hy hx⟩

theorem OddCycle.of_cyclic {C : List Nat} (hn : C.Nodup) (ho : C.length % 2 = 1) (hl : 3 ≤ C.length) (hc : Cyclic g C) :
    OddCycle g C := by
  refine ⟨hn, ho, hl, hc.chain, ?_⟩
  intro a b ha hb
  unfold Cyclic at hc
  rw [List.isChain_append] at hc
  exact hc.2.2 b hb a ha

theorem OddCycle.rot {C D : List Nat} (h : OddCycle g C) (hr : D.IsRotated C) : OddCycle g D :=
  .of_cyclic (hr.perm.nodup_iff.2 h.nodup) (by rw [hr.perm.length_eq]; exact h.odd) (by rw [hr.perm.length_eq]; exact h.long)
    (h.cyclic.rot hr)

theorem OddCycle.mem_nodes (hg : g.Lawful) {C : List Nat} (h : OddCycle g C) {x : Nat} (hx : x ∈ C) : x ∈ g.nodes := by
  obtain ⟨q, hq⟩ := rot_to hx
  have := h.rot hq.symm
  cases q with
  | nil => have := this.long; simp at this
  | cons y q => exact hg.adj_src (List.isChain_cons_cons.1 this.chain).1

theorem two_le_of_ne {l : List Nat} {c d : Nat} (hc : c ∈ l) (hd : d ∈ l) (hne : c ≠ d) : 2 ≤ l.length := by
  cases l with
  | nil => simp at hc
  | cons a l =>
    cases l with
    | nil => simp at hc hd; exact absurd (hc.trans hd.symm) hne
    | cons b l => simp

theorem Arc.ne_nil {B l : List Nat} {c d : Nat} (h : Arc g B c d l) : l ≠ [] := by
  intro e; have := h.head; rw [e] at this; simp at this

theorem Arc.head_mem {B l : List Nat} {c d : Nat} (h : Arc g B c d l) : c ∈ l := List.mem_of_head? h.head
theorem Arc.last_mem {B l : List Nat} {c d : Nat} (h : Arc g B c d l) : d ∈ l := List.mem_of_getLast? h.last

/-- A node outside an odd closed walk has at most one neighbor on it. -/
theorem nbr_unique (hg : g.Lawful) (hA : g.ApartOn S) {B : List Nat} (hS : ∀ x ∈ B, S x) (hn : B.Nodup) (hc : Cyclic g B)
    (ho : B.length % 2 = 1) {x c d : Nat} (hx : x ∉ B) (hcB : c ∈ B) (hdB : d ∈ B) (h1 : g.Adj x c) (h2 : g.Adj x d) :
    c = d := by
  by_contra hne
  obtain ⟨l, hl, hlen⟩ := exists_arc hg hn hc ho hcB hdB hne 0
  have h3 : 3 ≤ B.length := by have := two_le_of_ne hcB hdB hne; omega
  have hl2 : 2 ≤ l.length := by have := List.length_pos_iff.2 hl.ne_nil; omega
  have hC : OddCycle g (x :: l) := by
    refine ⟨?_, by simp; omega, by simp; omega, ?_, ?_⟩
    · rw [List.nodup_cons]; exact ⟨fun h => hx (hl.sub x h), hl.nodup⟩
    · cases l with
      | nil => simp at hl2
      | cons y l =>
        have := hl.head
        simp at this; subst this
        exact List.isChain_cons_cons.2 ⟨h1, hl.chain⟩
    · intro a b ha hb
      simp at ha; subst ha
      have : (x :: l).getLast? = some d := by
        cases l with
        | nil => simp at hl2
        | cons y l => rw [List.getLast?_cons_cons]; exact hl.last
      rw [this] at hb; simp at hb; subst hb
      exact hg.adj_symm _ _ h2
  exact hx (hA _ _ c x hC (.of_cyclic hn ho h3 hc) (by simp [hl.head_mem]) hcB (hS c hcB) (by simp))

/-- The graph of a rotated odd cycle through the id of a contracted blossom, seen in the original graph. -/
theorem Blossom.Con.through_id (h : Con g p b base g' p') {l : List Nat} (hC : OddCycle g' (b.id :: l)) :
    l.Nodup ∧ (∀ x ∈ l, x ∈ g.nodes ∧ x ∉ b.path) ∧ l.IsChain g.Adj ∧ l.length % 2 = 0 ∧ 2 ≤ l.length ∧
    (∀ a, l.head? = some a → ∃ e ∈ b.path, g.Adj e a) ∧ (∀ z, l.getLast? = some z → ∃ d ∈ b.path, g.Adj z d) := by
  have hnd := List.nodup_cons.1 hC.nodup
  have hod := hC.odd
  have hlo := hC.long
  simp at hod hlo
  have hne : ∀ x ∈ l, x ≠ b.id := fun x hx e => hnd.1 (e ▸ hx)
  refine ⟨hnd.2, ?_, h.chain_out hnd.2 hnd.1 hC.chain.tail, by omega, by omega, ?_, ?_⟩
  · intro x hx
    exact h.out_of_ne (hC.mem_nodes h.lawful' (by simp [hx])) (hne x hx)
  · intro a ha
    cases l with
    | nil => simp at ha
    | cons y l =>
      simp at ha; subst ha
      exact h.adj_id (hne y (by simp)) (List.isChain_cons_cons.1 hC.chain).1
  · intro z hz
    have hadj := hC.closes b.id z rfl (by
      cases l with
      | nil => simp at hz
      | cons y l => rw [List.getLast?_cons_cons]; exact hz)
    obtain ⟨d, h1, h2⟩ := h.adj_id (hne z (List.mem_of_getLast? hz)) (h.lawful'.adj_symm _ _ hadj)
    exact ⟨d, h1, h.lawful.adj_symm _ _ h2⟩

theorem cycle_of_arc {l arc : List Nat} {d e : Nat} {B : List Nat} (hn : l.Nodup) (hout : ∀ x ∈ l, x ∉ B) (hch : l.IsChain g.Adj)
    (hlen : l.length % 2 = 0) (h2 : 2 ≤ l.length) (harc : Arc g B d e arc) (ho : arc.length % 2 = 1)
    (ha : ∀ a, l.head? = some a → g.Adj e a) (hz : ∀ z, l.getLast? = some z → g.Adj z d) : OddCycle g (l ++ arc) := by
  refine ⟨?_, by simp; omega, by simp; omega, ?_, ?_⟩
  · rw [List.nodup_append]
    refine ⟨hn, harc.nodup, ?_⟩
    intro x hx y hy e
    exact hout x hx (e ▸ harc.sub y hy)
  · rw [List.isChain_append]
    refine ⟨hch, harc.chain, ?_⟩
    intro x hx y hy
    rw [harc.head] at hy; simp at hy; subst hy
    exact hz x hx
  · intro a b hab hbb
    rw [List.getLast?_append, harc.last] at hbb
    simp at hbb; subst hbb
    cases l with
    | nil => simp at h2
    | cons y l => simp at hab; subst hab; exact ha y rfl

/-- A proper blossom is contracted to a node on no odd cycle. -/
theorem Blossom.Con.id_off (h : Con g p b base g' p') (hA : g.ApartOn S) (hS : ∀ x ∈ b.path, S x) (hc : Cyclic g b.path) (ho : b.path.length % 2 = 1)
    (h3 : 3 ≤ b.path.length) {C : List Nat} (hC : OddCycle g' C) : b.id ∉ C := by
  intro hid
  obtain ⟨l, hl⟩ := rot_to hid
  obtain ⟨hn, hout, hch, hev, h2, hh, hz⟩ := h.through_id (hC.rot hl.symm)
  have hl0 : l ≠ [] := by intro e; rw [e] at h2; simp at h2
  obtain ⟨a, ha⟩ : ∃ a, l.head? = some a := by
    cases l with
    | nil => exact absurd rfl hl0
    | cons a l => exact ⟨a, rfl⟩
  obtain ⟨z, hzz⟩ : ∃ z, l.getLast? = some z := ⟨_, List.getLast?_eq_some_getLast hl0⟩
  obtain ⟨e, he, hea⟩ := hh a ha
  obtain ⟨d, hd, hzd⟩ := hz z hzz
  obtain ⟨arc, harc, hao⟩ : ∃ arc, Arc g b.path d e arc ∧ arc.length % 2 = 1 := by
    by_cases hde : d = e
    · subst hde
      exact ⟨[d], ⟨by simpa using hd, by simp, .singleton _, rfl, rfl⟩, rfl⟩
    · exact exists_arc h.lawful h.flower.nodup hc ho hd he hde 1
  have hcyc := cycle_of_arc hn (fun x hx => (hout x hx).2) hch hev h2 harc hao
    (fun x hx => by rw [ha] at hx; simp at hx; subst hx; exact hea)
    (fun x hx => by rw [hzz] at hx; simp at hx; subst hx; exact hzd)
  have haC : a ∈ l := List.mem_of_head? ha
  exact (hout a haC).2 (hA _ _ d a hcyc (.of_cyclic h.flower.nodup ho h3 hc) (by simp [harc.head_mem]) hd (hS d hd) (by simp [haC]))

/-- The base stands for the contracted blossom. -/
def unkap (b : Blossom) (base x : Nat) : Nat := if x = b.id then base else x

theorem Blossom.Con.lift_cycle (h : Con g p b base g' p') {C : List Nat} (hC : OddCycle g' C)
    (hid : b.path.length = 1 ∨ b.id ∉ C) : ∃ D, OddCycle g D ∧ ∀ x, x ∈ D ↔ ∃ y ∈ C, unkap b base y = x := by
  by_cases hm : b.id ∈ C
  · have h1 := hid.resolve_right (fun h => h hm)
    obtain ⟨x0, hB⟩ := List.length_eq_one_iff.1 h1
    have hbase : x0 = base := by have := h.flower.base_mem; rw [hB] at this; simp at this; exact this.symm
    subst hbase
    obtain ⟨l, hl⟩ := rot_to hm
    obtain ⟨hn, hout, hch, hev, h2, hh, hz⟩ := h.through_id (hC.rot hl.symm)
    rw [hB] at hh hz
    refine ⟨l ++ [x0], cycle_of_arc (B := b.path) (d := x0) (e := x0) hn (fun x hx => (hout x hx).2) hch hev h2
      ⟨by rw [hB]; simp, by simp, .singleton _, rfl, rfl⟩ rfl ?_ ?_, ?_⟩
    · intro a ha; obtain ⟨e, he, h3⟩ := hh a ha; simp at he; subst he; exact h3
    · intro a ha; obtain ⟨e, he, h3⟩ := hz a ha; simp at he; subst he; exact h3
    · intro x
      simp only [List.mem_append, List.mem_singleton]
      have hne : ∀ y ∈ l, y ≠ b.id := fun y hy e => (List.nodup_cons.1 (hC.rot hl.symm).nodup).1 (e ▸ hy)
      constructor
      · rintro (hx | rfl)
        · refine ⟨x, (IsRotated.mem hl).2 (by simp [hx]), ?_⟩
          simp [unkap, hne x hx]
        · exact ⟨b.id, hm, by simp [unkap]⟩
      · rintro ⟨y, hy, rfl⟩
        rcases List.mem_cons.1 ((IsRotated.mem hl).1 hy) with rfl | hy
        · right; simp [unkap]
        · left; simp [unkap, hne y hy, hy]
  · have hne : ∀ y ∈ C, y ≠ b.id := fun y hy e => hm (e ▸ hy)
    refine ⟨C, ⟨hC.nodup, hC.odd, hC.long, h.chain_out hC.nodup hm hC.chain, ?_⟩, ?_⟩
    · intro a z ha hz
      refine h.adj_out ?_ (hne z (List.mem_of_getLast? hz)) (hne a (List.mem_of_head? ha)) (hC.closes a z ha hz)
      rintro rfl
      have hl := hC.long
      cases C with
      | nil => simp at hl
      | cons y C =>
        simp at ha; subst ha
        cases C with
        | nil => simp at hl
        | cons w C =>
          rw [List.getLast?_cons_cons] at hz
          exact (List.nodup_cons.1 hC.nodup).1 (List.mem_of_getLast? hz)
    · intro x
      constructor
      · intro hx; exact ⟨x, hx, by simp [unkap, hne x hx]⟩
      · rintro ⟨y, hy, rfl⟩; simp [unkap, hne y hy, hy]

theorem Blossom.Con.lift_cycle' (h : Con g p b base g' p') (hA : g.ApartOn S) (hS : ∀ x ∈ b.path, S x) (hc : Cyclic g b.path) (ho : b.path.length % 2 = 1)
    {C : List Nat} (hC : OddCycle g' C) : ∃ D, OddCycle g D ∧ ∀ x, x ∈ D ↔ ∃ y ∈ C, unkap b base y = x := by
  refine h.lift_cycle hC ?_
  by_cases h3 : 3 ≤ b.path.length
  · exact .inr (h.id_off hA hS hc ho h3 hC)
  · left; omega

theorem Blossom.Con.unkap_inj (h : Con g p b base g' p') {x y : Nat} (hx : x ∈ g'.nodes) (hy : y ∈ g'.nodes)
    (e : unkap b base x = unkap b base y) : x = y := by
  unfold unkap at e
  have hb := h.flower.base_mem
  split at e <;> split at e
  · rename_i h1 h2; rw [h1, h2]
  · rename_i h1 h2; exact absurd (e ▸ hb) (h.out_of_ne hy h2).2
  · rename_i h1 h2; exact absurd (e ▸ hb) (h.out_of_ne hx h1).2
  · exact e

/-- Contracting a blossom keeps odd cycles apart. -/
theorem Blossom.Con.apart (h : Con g p b base g' p') (hA : g.ApartOn S) (hS : ∀ x ∈ b.path, S x) (hc : Cyclic g b.path) (ho : b.path.length % 2 = 1) :
    g'.ApartOn (fun x => S (unkap b base x)) := by
  intro C D x y hC hD hxC hxD hx hyC
  obtain ⟨C', hC', mC⟩ := h.lift_cycle' hA hS hc ho hC
  obtain ⟨D', hD', mD⟩ := h.lift_cycle' hA hS hc ho hD
  have := hA C' D' _ _ hC' hD' ((mC _).2 ⟨x, hxC, rfl⟩) ((mD _).2 ⟨x, hxD, rfl⟩) hx ((mC _).2 ⟨y, hyC, rfl⟩)
  obtain ⟨z, hz, e⟩ := (mD _).1 this
  rw [← h.unkap_inj (hD.mem_nodes h.lawful' hz) (hC.mem_nodes h.lawful' hyC) e]; exact hz

end Gamma
