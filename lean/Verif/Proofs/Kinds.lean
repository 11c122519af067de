import Verif.Proofs.Looks
import Verif.Proofs.LiftSpec
/-
Kinds of components, and what becomes of them when a blossom is contracted.
-/
namespace Gamma
open Pairing Blossom

variable {g g' : GraphI} {b : Blossom} {p p' : Pairing} {base : Nat} {pf : Platform}

/-- Un-contraction, the blossom on the path. -/
theorem fine_of_arc (h : Con g p b base g' p')
    {left right arc : List Nat} (hG : Fine g' p' (left ++ b.id :: right)) (hl : IsPath g (left ++ arc ++ right))
    (hodd : arc.length % 2 = 1) (hb : base ∈ arc)
    (hcl : ∀ x ∈ arc, x ≠ base → ∃ y ∈ arc, p.get x = some y) : Fine g p (left ++ arc ++ right) := by
  have hnd' := List.nodup_append.1 hG.isPath.nodup
  have hidL : b.id ∉ left := fun hm => hnd'.2.2 _ hm _ (by simp) rfl
  have hidR : b.id ∉ right := (List.nodup_cons.1 hnd'.2.1).1
  have hne : arc ≠ [] := List.ne_nil_of_mem hb
  have hout : ∀ z, z ∈ left ∨ z ∈ right → z ≠ b.id ∧ z ∈ g.nodes ∧ z ∉ b.path := by
    intro z hz
    have h1 : z ≠ b.id := by rcases hz with hz | hz <;> (rintro rfl; first | exact hidL hz | exact hidR hz)
    exact ⟨h1, h.out_of_ne (hG.isPath.mem z (by simp; tauto)) h1⟩
  have hmem : ∀ y, y ∈ left ++ b.id :: right → y ≠ b.id → y ∈ left ++ arc ++ right := by
    intro y hy hne; simp at hy ⊢; tauto
  refine ⟨hl, ?_, ?_, ?_, ?_⟩
  · have := hG.even
    simp at this ⊢; omega
  · intro x y hx hxy
    have outside : x ∈ left ∨ x ∈ right → y ∈ left ++ arc ++ right := by
      intro hx
      obtain ⟨h1, h2, h3⟩ := hout x hx
      have h4 := hG.closed x _ (by simp; tauto) (h.get_up h3 h2 hxy)
      by_cases hy : y ∈ b.path
      · have := h.flower.base_of_out hy (fun z hz => by
          rw [h.matches_.symmetric.get_get hxy] at hz; injection hz with hz; exact hz ▸ h3)
        rw [this]; simp [hb]
      · rw [kap_out hy] at h4
        refine hmem y h4 (h.free y (h.matches_.mem_right h.lawful hxy) hy)
    simp only [List.mem_append] at hx
    rcases hx with (hx | hx) | hx
    · exact outside (.inl hx)
    · by_cases hxb : x = base
      · subst hxb
        have h4 := hG.closed _ _ (by simp) (h.get_base_up hxy)
        exact hmem y h4 (h.free y (h.matches_.mem_right h.lawful hxy) (h.flower.base_out y hxy))
      · obtain ⟨z, hz, e⟩ := hcl x hx hxb
        rw [hxy] at e; injection e with e; subst e
        simp [hz]
    · exact outside (.inr hx)
  · obtain ⟨x, hx, e⟩ := hG.unpaired
    by_cases hxi : x = b.id
    · refine ⟨base, by simp [hb], ?_⟩
      have := h.get_none (h.flower.sub base h.flower.base_mem) (fun _ => rfl)
      rw [kap_in h.flower.base_mem, ← hxi] at this
      exact this.1 e
    · have hx' : x ∈ left ∨ x ∈ right := by simp at hx; tauto
      obtain ⟨-, h2, h3⟩ := hout x hx'
      refine ⟨x, by simp; tauto, ?_⟩
      have := h.get_none h2 (fun hm => absurd hm h3)
      rw [kap_out h3] at this
      exact this.1 e
  · obtain ⟨s, t, hst⟩ := hG.few
    refine ⟨if s = b.id then base else s, if t = b.id then base else t, fun x hx e => ?_⟩
    have key : ∀ y, y = s ∨ y = t → (if y = b.id then base else y) = (if s = b.id then base else s) ∨
        (if y = b.id then base else y) = (if t = b.id then base else t) := by
      rintro y (rfl | rfl) <;> simp
    simp only [List.mem_append] at hx
    by_cases hxa : x ∈ arc
    · have hxb : x = base := by
        by_contra hne
        obtain ⟨y, -, e'⟩ := hcl x hxa hne
        rw [e] at e'; cases e'
      subst hxb
      have h1 := (h.get_none (h.flower.sub x h.flower.base_mem) (fun _ => rfl)).2 e
      rw [kap_in h.flower.base_mem] at h1
      have := key _ (hst b.id (by simp) h1)
      simpa using this
    · have hx' : x ∈ left ∨ x ∈ right := by tauto
      obtain ⟨h1, h2, h3⟩ := hout x hx'
      have h4 := (h.get_none h2 (fun hm => absurd hm h3)).2 e
      rw [kap_out h3] at h4
      have := key _ (hst x (by simp; tauto) h4)
      rw [if_neg h1] at this
      exact this

/-- Un-contraction, the blossom off the path. -/
theorem fine_of_out (h : Con g p b base g' p') {path : List Nat} (hG : Fine g' p' path) (hid : b.id ∉ path)
    (hl : IsPath g path) : Fine g p path := by
  have hout : ∀ z ∈ path, z ∈ g.nodes ∧ z ∉ b.path := fun z hz =>
    h.out_of_ne (hG.isPath.mem z hz) (fun e => hid (e ▸ hz))
  have hnone : ∀ x ∈ path, p'.get x = none ↔ p.get x = none := by
    intro x hx
    obtain ⟨h2, h3⟩ := hout x hx
    have := h.get_none h2 (fun hm => absurd hm h3)
    rwa [kap_out h3] at this
  refine ⟨hl, hG.even, ?_, ?_, ?_⟩
  · intro x y hx hxy
    obtain ⟨h2, h3⟩ := hout x hx
    have h4 := hG.closed x _ hx (h.get_up h3 h2 hxy)
    by_cases hy : y ∈ b.path
    · rw [kap_in hy] at h4; exact absurd h4 hid
    · rwa [kap_out hy] at h4
  · obtain ⟨x, hx, e⟩ := hG.unpaired
    exact ⟨x, hx, (hnone x hx).1 e⟩
  · obtain ⟨s, t, hst⟩ := hG.few
    exact ⟨s, t, fun x hx e => hst x hx ((hnone x hx).2 e)⟩

/-! ### Components -/

theorem Adj.reach (hg : g.Lawful) {x y : Nat} (h : g.Adj x y) : g.simple.Reachable x y := by
  by_cases e : x = y
  · rw [e]
  · exact SimpleGraph.Adj.reachable ((hg.simple_adj).2 ⟨e, h⟩)

theorem chain_reach (hg : g.Lawful) : ∀ {l : List Nat} {a : Nat}, (a :: l).IsChain g.Adj → ∀ x ∈ a :: l, g.simple.Reachable a x := by
  intro l
  induction l with
  | nil => intro a _ x hx; obtain rfl : x = a := by simpa using hx
           exact .refl _
  | cons c l ih =>
    intro a h x hx
    rw [List.isChain_cons_cons] at h
    rcases List.mem_cons.1 hx with rfl | hx
    · exact .refl _
    · exact (Adj.reach hg h.1).trans (ih h.2 x hx)

theorem chain_pair (hg : g.Lawful) {l : List Nat} (hl : l.IsChain g.Adj) {x y : Nat} (hx : x ∈ l) (hy : y ∈ l) :
    g.simple.Reachable x y := by
  cases l with
  | nil => simp at hx
  | cons a l => exact (chain_reach hg hl x hx).symm.trans (chain_reach hg hl y hy)

/-- Something that is kept along edges is kept in a component. -/
theorem reach_induct (hg : g.Lawful) {Q : Nat → Prop} (hQ : ∀ x y, Q x → g.Adj x y → Q y) {x y : Nat}
    (h : g.simple.Reachable x y) : Q x → Q y := by
  obtain ⟨w⟩ := h
  induction w with
  | nil => exact _root_.id
  | cons ha _ ih => exact fun hx => ih (hQ _ _ hx ((hg.simple_adj).1 ha).2)

theorem reach_mem (hg : g.Lawful) {x y : Nat} (h : g.simple.Reachable x y) (hx : x ∈ g.nodes) : y ∈ g.nodes :=
  reach_induct hg (Q := fun z => z ∈ g.nodes) (fun _ _ _ ha => hg.adj_mem _ _ ha) h hx

theorem GraphI.CliqueAt.pair {v x y : Nat} (hC : g.CliqueAt v) (hx : g.simple.Reachable v x) (hy : g.simple.Reachable v y) :
    x = y ∨ g.Adj x y := by
  by_cases e : x = y
  · exact .inl e
  · exact .inr (hC x y hx hy e)

theorem GraphI.CliqueAt.move {v u : Nat} (hC : g.CliqueAt v) (h : g.simple.Reachable v u) : g.CliqueAt u :=
  fun x y hx hy => hC x y (h.trans hx) (h.trans hy)

theorem GraphI.ApartAt.move {v u : Nat} (hA : g.ApartAt v) (h : g.simple.Reachable v u) : g.ApartAt u :=
  fun C D x y hC hD h1 h2 h3 => hA C D x y hC hD h1 h2 (h.trans h3)

theorem GraphI.ApartAt.on {v : Nat} (hA : g.ApartAt v) : g.ApartOn (fun x => g.simple.Reachable v x) :=
  fun C D x y hC hD h1 h2 h3 => hA C D x y hC hD h1 h2 h3

theorem GraphI.Cliques.at (hC : g.Cliques) (hg : g.Lawful) (v : Nat) : g.CliqueAt v := by
  have key : ∀ x, g.simple.Reachable v x → v = x ∨ g.Adj v x := fun x h =>
    reach_induct hg (Q := fun z => v = z ∨ g.Adj v z) (fun a c h1 h2 => by
      rcases h1 with rfl | h1
      · exact .inr h2
      · by_cases e : v = c
        · exact .inl e
        · exact .inr (hC _ _ _ h1 h2 e)) h (.inl rfl)
  intro x y hx hy hne
  rcases key x hx with rfl | h1
  · exact (key y hy).resolve_left hne
  · rcases key y hy with rfl | h2
    · exact hg.adj_symm _ _ h1
    · exact hC _ _ _ (hg.adj_symm _ _ h1) h2 hne

theorem GraphI.CliquesOrApart.easy (hM : g.CliquesOrApart) : g.EasyParts := fun v hv => (hM v hv).imp_right .inl

/-- An edge at a node of a path of four nodes or more, and another edge of the path, apart from it. -/
theorem Blossom.IsPath.two_edges {left right : List Nat} {i : Nat} (hg : g.Lawful) (hp : IsPath g (left ++ i :: right))
    (hl : 4 ≤ (left ++ i :: right).length) :
    ∃ u x y, u ∈ left ++ right ∧ x ∈ left ++ right ∧ y ∈ left ++ right ∧ [i, u, x, y].Nodup ∧ g.Adj i u ∧ g.Adj x y := by
  obtain ⟨l, rfl⟩ : ∃ l, left = l.reverse := ⟨left.reverse, by simp⟩
  have hnd := hp.nodup
  have hch := hp.chain
  match l, right, hl, hnd, hch with
  | l, u :: x :: y :: right, _, hnd, hch =>
    rw [List.isChain_append] at hch
    rw [List.nodup_append] at hnd
    simp only [List.isChain_cons_cons] at hch
    refine ⟨u, x, y, by simp, by simp, by simp, ?_, hch.2.1.1, hch.2.1.2.2.1⟩
    have := hnd.2.1
    simp at this ⊢; tauto
  | u :: x :: y :: l, [], _, hnd, hch =>
    rw [← List.isChain_reverse] at hch
    rw [← List.nodup_reverse] at hnd
    simp only [List.reverse_append, List.reverse_cons, List.reverse_nil, List.nil_append, List.reverse_reverse, List.singleton_append,
      List.append_assoc, List.cons_append, List.isChain_cons_cons] at hch hnd
    refine ⟨u, x, y, by simp, by simp, by simp, ?_, hg.adj_symm _ _ hch.1, hg.adj_symm _ _ hch.2.2.1⟩
    simp at hnd ⊢; tauto
  | x :: y :: l, [u], _, hnd, hch =>
    rw [← List.isChain_reverse] at hch
    rw [← List.nodup_reverse] at hnd
    simp only [List.reverse_append, List.reverse_cons, List.reverse_nil, List.nil_append, List.reverse_reverse, List.singleton_append,
      List.append_assoc, List.cons_append, List.isChain_cons_cons] at hch hnd
    refine ⟨u, x, y, by simp, by simp, by simp, ?_, hch.1, hg.adj_symm _ _ hch.2.2.1⟩
    simp at hnd ⊢; tauto
  | u :: l, [x, y], _, hnd, hch =>
    rw [← List.isChain_reverse] at hch
    rw [← List.nodup_reverse] at hnd
    simp only [List.reverse_append, List.reverse_cons, List.reverse_nil, List.nil_append, List.reverse_reverse, List.singleton_append,
      List.append_assoc, List.cons_append, List.isChain_cons_cons] at hch hnd
    refine ⟨u, x, y, by simp, by simp, by simp, ?_, hg.adj_symm _ _ hch.2.2.1, hch.1⟩
    simp at hnd ⊢; tauto

/-- Rotated to start with any of its nodes, a cycle of three nodes or more goes on with an edge. -/
theorem Cyclic.edge_off {B : List Nat} (hc : Cyclic g B) (hn : B.Nodup) (h3 : 3 ≤ B.length) {t : Nat} (ht : t ∈ B) :
    ∃ c d, c ∈ B ∧ d ∈ B ∧ g.Adj c d ∧ [t, c, d].Nodup := by
  obtain ⟨l, r, rfl⟩ := List.append_of_mem ht
  have h1 := (hc.swap).chain
  have h2 : (t :: r ++ l).Nodup := (List.nodup_append_comm).1 hn
  rw [List.cons_append] at h1 h2
  have h4 : ∀ x, x ∈ r ++ l → x ∈ l ++ t :: r := by intro x; simp; tauto
  cases e : r ++ l with
  | nil => have := congrArg List.length e; rw [List.length_append] at this; simp only [List.length_append, List.length_cons, List.length_nil] at this h3; omega
  | cons c k =>
    cases k with
    | nil => have := congrArg List.length e; rw [List.length_append] at this; simp only [List.length_append, List.length_cons, List.length_nil] at this h3; omega
    | cons d k =>
      rw [e] at h1 h2 h4
      refine ⟨c, d, h4 c (by simp), h4 d (by simp), (List.isChain_cons_cons.1 (List.isChain_cons_cons.1 h1).2).1, ?_⟩
      simp at h2 ⊢; tauto

theorem GraphI.Cliques.mixed (hC : g.Cliques) (hg : g.Lawful) : g.CliquesOrApart := fun v _ => .inl (hC.at hg v)

theorem GraphI.OddCyclesApart.mixed (hA : g.OddCyclesApart) : g.CliquesOrApart :=
  fun _ _ => .inr (fun C D x y hC hD h1 h2 _ h3 => hA C D x y hC hD h1 h2 h3)

/-! ### Components of the contracted graph -/

section
variable (h : Con g p b base g' p') (hcyc : Cyclic g b.path)
include h

theorem Blossom.Con.reach_up {x y : Nat} (hr : g.simple.Reachable x y) : g'.simple.Reachable (kap b x) (kap b y) := by
  refine reach_induct h.lawful (Q := fun z => g'.simple.Reachable (kap b x) (kap b z)) (fun a c h1 h2 => h1.trans ?_) hr (.refl _)
  by_cases e : kap b a = kap b c
  · rw [e]
  · exact Adj.reach h.lawful' ((h.adj' _ _ e).2 ⟨a, c, h2, rfl, rfl⟩)

include hcyc

theorem Blossom.Con.reach_down {x y : Nat} (hx : x ∈ g.nodes) (hy : y ∈ g.nodes)
    (hr : g'.simple.Reachable (kap b x) (kap b y)) : g.simple.Reachable x y := by
  have same : ∀ u w, u ∈ g.nodes → w ∈ g.nodes → kap b u = kap b w → g.simple.Reachable u w := by
    intro u w hu hw e
    rcases (h.free.kap_eq hu hw).1 e with rfl | ⟨h1, h2⟩
    · exact .refl _
    · exact chain_pair h.lawful hcyc.chain h1 h2
  refine reach_induct h.lawful' (Q := fun z => ∀ w ∈ g.nodes, kap b w = z → g.simple.Reachable x w) (fun a c h1 h2 w hw e => ?_) hr
    (fun w hw e => same x w hx hw e.symm) y hy rfl
  by_cases hac : a = c
  · subst hac; exact h1 w hw e
  · obtain ⟨u, u', k1, k2, k3⟩ := (h.adj' _ _ hac).1 h2
    exact ((h1 u (h.lawful.adj_src k1) k2).trans (Adj.reach h.lawful k1)).trans
      (same u' w (h.lawful.adj_mem _ _ k1) hw (k3.trans e.symm))

theorem Blossom.Con.onto {z : Nat} (hz : z ∈ g'.nodes) : ∃ x ∈ g.nodes, kap b x = z := by
  rcases h.mem_nodes.1 hz with rfl | ⟨h1, h2⟩
  · exact ⟨base, h.flower.sub base h.flower.base_mem, kap_in h.flower.base_mem⟩
  · exact ⟨z, h1, kap_out h2⟩

theorem Blossom.Con.cliqueAt {v : Nat} (hv : v ∈ g.nodes) (hC : g.CliqueAt v) : g'.CliqueAt (kap b v) := by
  intro x y hx hy hne
  obtain ⟨x, hxn, rfl⟩ := h.onto hcyc (reach_mem h.lawful' hx (h.kap_mem hv))
  obtain ⟨y, hyn, rfl⟩ := h.onto hcyc (reach_mem h.lawful' hy (h.kap_mem hv))
  exact (h.adj' _ _ hne).2 ⟨x, y, hC x y (h.reach_down hcyc hv hxn hx) (h.reach_down hcyc hv hyn hy) (fun e => hne (by rw [e])), rfl, rfl⟩

theorem Blossom.Con.cycle_down (ho : b.path.length % 2 = 1) {v : Nat} (hv : v ∈ g.nodes) (hA : g.ApartAt v) {C : List Nat}
    (hC : OddCycle g' C) {x : Nat} (hx : x ∈ C) (hr : g'.simple.Reachable (kap b v) x) :
    ∃ D, OddCycle g D ∧ ∀ z, z ∈ D ↔ ∃ y ∈ C, unkap b base y = z := by
  by_cases hb : g.simple.Reachable v base
  · refine h.lift_cycle' hA.on (fun z hz => hb.trans (chain_pair h.lawful hcyc.chain h.flower.base_mem hz)) hcyc ho hC
  · refine h.lift_cycle hC (.inr (fun hid => hb (h.reach_down hcyc hv (h.flower.sub base h.flower.base_mem) ?_)))
    rw [kap_in h.flower.base_mem]
    exact hr.trans (chain_pair h.lawful' hC.chain hx hid)

theorem Blossom.Con.reach_unkap {v : Nat} (hv : v ∈ g.nodes) {x : Nat} (hx : x ∈ g'.nodes) (hr : g'.simple.Reachable (kap b v) x) :
    g.simple.Reachable v (unkap b base x) := by
  have : kap b (unkap b base x) = x ∧ unkap b base x ∈ g.nodes := by
    unfold unkap
    split
    · rename_i e; exact ⟨by rw [kap_in h.flower.base_mem, e], h.flower.sub base h.flower.base_mem⟩
    · rename_i e; obtain ⟨h1, h2⟩ := h.out_of_ne hx e; exact ⟨kap_out h2, h1⟩
  exact h.reach_down hcyc hv this.2 (this.1.symm ▸ hr)

theorem Blossom.Con.apartAt (ho : b.path.length % 2 = 1) {v : Nat} (hv : v ∈ g.nodes) (hA : g.ApartAt v) : g'.ApartAt (kap b v) := by
  intro C D x y hC hD hxC hxD hr hyC
  obtain ⟨C', hC', mC⟩ := h.cycle_down hcyc ho hv hA hC hxC hr
  obtain ⟨D', hD', mD⟩ := h.cycle_down hcyc ho hv hA hD hxD hr
  have := hA C' D' _ _ hC' hD' ((mC _).2 ⟨x, hxC, rfl⟩) ((mD _).2 ⟨x, hxD, rfl⟩)
    (h.reach_unkap hcyc hv (hC.mem_nodes h.lawful' hxC) hr) ((mC _).2 ⟨y, hyC, rfl⟩)
  obtain ⟨z, hz, e⟩ := (mD _).1 this
  rw [← h.unkap_inj (hD.mem_nodes h.lawful' hz) (hC.mem_nodes h.lawful' hyC) e]; exact hz

theorem Blossom.Con.narrowAt {v : Nat} (hv : v ∈ g.nodes) (hN : g.NarrowAt v) : g'.NarrowAt (kap b v) := by
  intro x1 y1 x2 y2 x3 y3 r1 r2 r3 a1 a2 a3 hnd
  have hne : x1 ≠ y1 ∧ x2 ≠ y2 ∧ x3 ≠ y3 := by simp at hnd; tauto
  obtain ⟨u1, w1, e1, rfl, rfl⟩ := (h.adj' _ _ hne.1).1 a1
  obtain ⟨u2, w2, e2, rfl, rfl⟩ := (h.adj' _ _ hne.2.1).1 a2
  obtain ⟨u3, w3, e3, rfl, rfl⟩ := (h.adj' _ _ hne.2.2).1 a3
  exact hN u1 w1 u2 w2 u3 w3 (h.reach_down hcyc hv (h.lawful.adj_src e1) r1) (h.reach_down hcyc hv (h.lawful.adj_src e2) r2)
    (h.reach_down hcyc hv (h.lawful.adj_src e3) r3) e1 e2 e3 (List.Nodup.of_map (kap b) hnd)

end

/-- In a component with no three disjoint edges, a path through a contracted blossom of three nodes or more has at most three nodes. -/
theorem Blossom.Con.narrow_short (h : Con g p b base g' p') (hcyc : Cyclic g b.path) {v : Nat} (hvB : v ∈ b.path) (hN : g.NarrowAt v)
    (h3 : 3 ≤ b.path.length) {left right : List Nat} (hp : IsPath g' (left ++ b.id :: right)) : (left ++ b.id :: right).length ≤ 3 := by
  by_contra hlt
  obtain ⟨u, x, y, hu, hx, hy, hnd, a1, a2⟩ := hp.two_edges h.lawful' (by omega)
  have hmem : ∀ z ∈ left ++ right, z ∈ g'.nodes := fun z hz => hp.mem z (by simp at hz ⊢; tauto)
  have hne : b.id ≠ u ∧ b.id ≠ x ∧ b.id ≠ y ∧ u ≠ x ∧ u ≠ y ∧ x ≠ y := by simp at hnd; tauto
  obtain ⟨t, ht, a1⟩ := h.adj_id hne.1.symm a1
  obtain ⟨x0, y0, a4, k1, k2⟩ := (h.adj' _ _ hne.2.2.2.2.2).1 a2
  have e1 := h.preimage hne.2.1.symm k1
  have e2 := h.preimage hne.2.2.1.symm k2
  subst e1 e2
  obtain ⟨c, d, hc, hd, a3, hnd3⟩ := hcyc.edge_off h.flower.nodup h3 ht
  have ou := (h.out_of_ne (hmem u hu) hne.1.symm).2
  have ox := (h.out_of_ne (hmem x0 hx) hne.2.1.symm).2
  have oy := (h.out_of_ne (hmem y0 hy) hne.2.2.1.symm).2
  have hidn : kap b v = b.id := kap_in hvB
  have rx : g'.simple.Reachable b.id x0 := chain_pair h.lawful' hp.chain (by simp) (by simp at hx ⊢; tauto)
  have rB : ∀ z ∈ b.path, g.simple.Reachable v z := fun z hz => chain_pair h.lawful hcyc.chain hvB hz
  refine hN t u x0 y0 c d (rB t ht) ?_ (rB c hc) a1 a4 a3 ?_
  · refine h.reach_down hcyc (h.flower.sub v hvB) (h.lawful.adj_src a4) ?_
    rw [hidn, kap_out ox]; exact rx
  · have q : ∀ z ∈ b.path, z ≠ u ∧ z ≠ x0 ∧ z ≠ y0 := fun z hz =>
      ⟨fun e => ou (e ▸ hz), fun e => ox (e ▸ hz), fun e => oy (e ▸ hz)⟩
    have q1 := q t ht
    have q2 := q c hc
    have q3 := q d hd
    simp only [List.nodup_cons, List.mem_cons, List.not_mem_nil, or_false, not_or, List.nodup_nil, and_true, not_false_eq_true] at hnd3 ⊢
    have s : ∀ m n : Nat, m ≠ n → n ≠ m := fun _ _ h => h.symm
    refine ⟨⟨q1.1, q1.2.1, q1.2.2, hnd3.1.1, hnd3.1.2⟩, ⟨hne.2.2.2.1, hne.2.2.2.2.1, q2.1.symm, q3.1.symm⟩,
      ⟨hne.2.2.2.2.2, q2.2.1.symm, q3.2.1.symm⟩, ⟨q2.2.2.symm, q3.2.2.symm⟩, hnd3.2⟩

end Gamma
