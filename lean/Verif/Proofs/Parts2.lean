import Verif.Proofs.Parts
import Verif.Proofs.Rerun
import Verif.Proofs.Outside
/-
Contracting a blossom in a graph, seen from a part of it that no edge leaves.
-/
namespace Gamma
open Pairing Blossom DefaultGraph

section
variable {S : Nat → Bool} {g h : GraphI}

theorem GraphI.InEdgeOrder.nbr (ho : g.InEdgeOrder) {v : Nat} (hv : v ∈ g.nodes) : g.nbr v = incident v g.edges := by
  unfold GraphI.nbr; rw [ho v hv]

theorem GraphI.InEdgeOrder.adj (hg : g.Lawful) (ho : g.InEdgeOrder) {u v : Nat} : g.Adj u v ↔ (u, v) ∈ g.edges ∨ (v, u) ∈ g.edges := by
  constructor
  · intro a
    have hu := hg.adj_src a
    rw [← GraphI.mem_nbr, ho.nbr hu] at a
    exact mem_incident.1 a
  · rintro (h | h)
    · exact hg.edges_adj _ _ h
    · exact hg.adj_symm _ _ (hg.edges_adj _ _ h)

/-- No edge leads out of `S`. -/
def GraphI.ClosedOn (S : Nat → Bool) (g : GraphI) : Prop := ∀ u v, g.Adj u v → S u = S v

/-- The part of a graph on `S`. -/
def GraphI.part (S : Nat → Bool) (g : GraphI) : GraphI where
  isEmpty := (g.nodes.filter S).isEmpty
  order := (g.nodes.filter S).length
  size := (g.edges.filter (fun e => S e.1)).length
  nodes := g.nodes.filter S
  neighbors v := if v ∈ g.nodes.filter S then g.neighbors v else .err (.missingNode v)
  hasNode v := (g.nodes.filter S).contains v
  degree v := (if v ∈ g.nodes.filter S then g.neighbors v else .err (.missingNode v)) >>= fun l => .ok l.length
  edges := g.edges.filter (fun e => S e.1)
  hasEdge u v := if u ∈ g.nodes.filter S then (if v ∈ g.nodes.filter S then g.hasEdge u v else .err (.missingNode v))
    else .err (.missingNode u)

theorem GraphI.part_mem {v : Nat} : v ∈ (g.part S).nodes ↔ v ∈ g.nodes ∧ S v = true := List.mem_filter

theorem GraphI.part_nbr {v : Nat} (hv : v ∈ (g.part S).nodes) : (g.part S).nbr v = g.nbr v := by
  unfold GraphI.nbr GraphI.part
  simp only
  rw [if_pos (show v ∈ g.nodes.filter S from hv)]

theorem GraphI.part_adj (hg : g.Lawful) {u v : Nat} : (g.part S).Adj u v ↔ g.Adj u v ∧ S u = true := by
  constructor
  · rintro ⟨l, e, hv⟩
    unfold GraphI.part at e
    simp only at e
    split at e
    · rename_i hu
      exact ⟨⟨l, e, hv⟩, (List.mem_filter.1 hu).2⟩
    · cases e
  · rintro ⟨⟨l, e, hv⟩, hu⟩
    refine ⟨l, ?_, hv⟩
    unfold GraphI.part
    simp only
    rw [if_pos (List.mem_filter.2 ⟨hg.adj_src ⟨l, e, hv⟩, hu⟩)]
    exact e

theorem GraphI.part_lawful (hg : g.Lawful) (hc : g.ClosedOn S) : (g.part S).Lawful where
  nodes_nodup := hg.nodes_nodup.filter _
  isEmpty_eq := rfl
  order_eq := rfl
  size_eq := rfl
  hasNode_iff := fun v => by unfold GraphI.part; simp
  neighbors_ok := fun v hv => by
    obtain ⟨l, e⟩ := hg.neighbors_ok v (List.mem_filter.1 hv).1
    refine ⟨l, ?_⟩
    unfold GraphI.part
    simp only
    rw [if_pos (show v ∈ g.nodes.filter S from hv), e]
  neighbors_err := fun v hv => by
    unfold GraphI.part
    simp only
    rw [if_neg (show v ∉ g.nodes.filter S from hv)]
  degree_eq := fun v => rfl
  adj_symm := fun u v a => by
    rw [GraphI.part_adj hg] at a ⊢
    exact ⟨hg.adj_symm _ _ a.1, by rw [← hc u v a.1]; exact a.2⟩
  adj_mem := fun u v a => by
    rw [GraphI.part_adj hg] at a
    exact GraphI.part_mem.2 ⟨hg.adj_mem _ _ a.1, by rw [← hc u v a.1]; exact a.2⟩
  neighbor_once := fun u v l e hne => by
    unfold GraphI.part at e
    simp only at e
    split at e
    · exact hg.neighbor_once u v l e hne
    · cases e
  hasEdge_ok := fun u v hu hv => by
    obtain ⟨b, e, hb⟩ := hg.hasEdge_ok u v (List.mem_filter.1 hu).1 (List.mem_filter.1 hv).1
    refine ⟨b, ?_, ?_⟩
    · unfold GraphI.part
      simp only
      rw [if_pos (show u ∈ g.nodes.filter S from hu), if_pos (show v ∈ g.nodes.filter S from hv), e]
    · rw [hb, GraphI.part_adj hg, and_iff_left (List.mem_filter.1 hu).2]
  hasEdge_err_left := fun u v hu => by
    unfold GraphI.part
    simp only
    rw [if_neg (show u ∉ g.nodes.filter S from hu)]
  hasEdge_err_right := fun u v hu hv => by
    unfold GraphI.part
    simp only
    rw [if_pos (show u ∈ g.nodes.filter S from hu), if_neg (show v ∉ g.nodes.filter S from hv)]
  edges_adj := fun u v h => by
    have := List.mem_filter.1 h
    exact (GraphI.part_adj hg).2 ⟨hg.edges_adj _ _ this.1, this.2⟩
  adj_edges := fun u v hne a => by
    rw [GraphI.part_adj hg] at a
    rcases hg.adj_edges u v hne a.1 with h | h
    · exact .inl (List.mem_filter.2 ⟨h, a.2⟩)
    · exact .inr (List.mem_filter.2 ⟨h, by simp only; rw [← hc u v a.1]; exact a.2⟩)
  edges_once := fun u v hne => by
    have h1 := hg.edges_once u v hne
    have h2 := (List.filter_sublist (p := fun e => S e.1) (l := g.edges)).count_le (u, v)
    have h3 := (List.filter_sublist (p := fun e => S e.1) (l := g.edges)).count_le (v, u)
    show (g.edges.filter _).count _ + (g.edges.filter _).count _ ≤ 1
    omega

theorem GraphI.part_sub (hg : g.Lawful) (hc : g.ClosedOn S) : GraphI.Sub S g (g.part S) :=
  ⟨hg, GraphI.part_lawful hg hc, rfl, fun _ hv => GraphI.part_nbr hv, hc⟩

theorem incident_filter {v : Nat} (hv : S v = true) (es : List (Nat × Nat)) (hc : ∀ e ∈ es, S e.1 = S e.2) :
    incident v (es.filter (fun e => S e.1)) = incident v es := by
  induction es with
  | nil => rfl
  | cons e es ih =>
    have i := ih (fun x hx => hc x (List.mem_cons_of_mem _ hx))
    have h1 := hc e List.mem_cons_self
    by_cases h : S e.1 = true
    · rw [List.filter_cons_of_pos (by simpa using h)]
      unfold incident at i ⊢
      rw [List.flatMap_cons, List.flatMap_cons, i]
    · rw [List.filter_cons_of_neg (by simpa using h), i]
      have e1 : v ≠ e.1 := by rintro rfl; exact h hv
      have e2 : v ≠ e.2 := by rintro rfl; rw [h1] at h; exact h hv
      unfold incident
      rw [List.flatMap_cons, if_neg e1, if_neg e2]; rfl

theorem GraphI.part_order (hg : g.Lawful) (ho : g.InEdgeOrder) (hc : g.ClosedOn S) : (g.part S).InEdgeOrder := by
  intro v hv
  have hv' := GraphI.part_mem.1 hv
  have : (g.part S).neighbors v = g.neighbors v := by
    unfold GraphI.part
    simp only
    rw [if_pos (show v ∈ g.nodes.filter S from hv)]
  rw [this, ho v hv'.1]
  congr 1
  exact (incident_filter hv'.2 _ (fun e he => hc _ _ (hg.edges_adj e.1 e.2 he))).symm

theorem GraphI.part_headroom {pf : Platform} (hh : Headroom pf g) : Headroom pf (g.part S) := by
  intro v hv
  have h1 := hh v (GraphI.part_mem.1 hv).1
  have h2 : (g.part S).depth ≤ g.depth := by
    unfold GraphI.depth GraphI.loops
    have a : (g.part S).nodes.length ≤ g.nodes.length := List.length_filter_le _ _
    have b : (g.part S).nodes.countP (fun v => ((g.part S).nbr v).contains v) ≤ g.nodes.countP (fun v => (g.nbr v).contains v) := by
      have : (g.part S).nodes.countP (fun v => ((g.part S).nbr v).contains v) = (g.part S).nodes.countP (fun v => (g.nbr v).contains v) :=
        List.countP_congr (fun x hx => by rw [GraphI.part_nbr hx])
      rw [this]
      exact List.Sublist.countP_le List.filter_sublist
    omega
  omega

/-- Two graphs in edge order that have the same nodes and edges but for the names. -/
theorem along_of_edges {φ : Nat → Nat} (hφ : Function.Injective φ) (hg : g.Lawful) (hh : h.Lawful) (og : g.InEdgeOrder) (oh : h.InEdgeOrder)
    (hn : h.nodes = g.nodes.map φ) (he : h.edges = g.edges.map (fun e => (φ e.1, φ e.2))) :
    GraphI.Along φ g h ∧ List.Forall₂ (EdgeRen φ) g.edges h.edges := by
  refine ⟨⟨hφ, hg, hh, hn, fun v hv => ?_⟩, ?_⟩
  · have hv' : φ v ∈ h.nodes := by rw [hn]; exact List.mem_map_of_mem hv
    rw [og.nbr hv, oh.nbr hv', he]
    generalize g.edges = es
    induction es with
    | nil => rfl
    | cons e es ih =>
      unfold incident at ih ⊢
      rw [List.map_cons, List.flatMap_cons, List.flatMap_cons, List.map_append, ih, List.map_append]
      simp only [hφ.eq_iff]
      congr 2 <;> split <;> rfl
  · rw [he, List.forall₂_map_right_iff]
    exact List.forall₂_same.2 (fun _ _ => .inl rfl)

end

/-! ### The edges of a contracted graph -/

/-- What contracting `b` makes of the next edge. -/
def cStep (b : Blossom) (acc : List (Nat × Nat)) (x : Nat × Nat) : List (Nat × Nat) :=
  if x.1 ∈ b.path ∧ x.2 ∈ b.path then acc
  else if (kap b x.1, kap b x.2) ∈ acc ∨ (kap b x.2, kap b x.1) ∈ acc then acc
  else acc ++ [(kap b x.1, kap b x.2)]

theorem addNodeQ_ordered {r r1 : DefaultGraph} (hr : r.Reachable) (ho : Ordered r) {v : Nat} (e : r.addNodeQ v = .ok r1) :
    r1.Reachable ∧ Ordered r1 ∧ r1.edges = r.edges := by
  obtain ⟨hv, a⟩ := addNodeQ_inv hr.wf e
  exact ⟨Reachable_addNodeQ hr e, opInv_ordered.node r r1 v hr.wf hr.sym ho hv a, a.edges⟩

theorem addEdgeQ_ordered {r r1 : DefaultGraph} (hr : r.Reachable) (ho : Ordered r) {s t : Nat} (e : r.addEdgeQ s t = .ok r1) :
    r1.Reachable ∧ Ordered r1 ∧ r1.edges = r.edges ++ [(s, t)] ∧ ¬ r.toI.Adj s t := by
  obtain ⟨hs, ht, ha, a⟩ := addEdgeQ_inv hr.wf e
  exact ⟨Reachable_addEdgeQ hr e, opInv_ordered.edge r r1 s t hr.wf hr.sym ho hs ht ha a, a.edges, ha⟩

theorem contractNodes_ordered {b : Blossom} (l : List Nat) : ∀ {r r1 : DefaultGraph}, r.Reachable → Ordered r →
    l.foldlM b.contractNode r = .ok r1 → r1.Reachable ∧ Ordered r1 ∧ r1.edges = r.edges := by
  induction l with
  | nil => intro r r1 hr ho e; cases e; exact ⟨hr, ho, rfl⟩
  | cons x l ih =>
    intro r r1 hr ho e
    rw [List.foldlM_cons] at e
    obtain ⟨r2, e2, e⟩ := Out.bind_eq_ok.1 e
    have : r2.Reachable ∧ Ordered r2 ∧ r2.edges = r.edges := by
      unfold Blossom.contractNode at e2
      split at e2
      · exact addNodeQ_ordered hr ho e2
      · cases e2; exact ⟨hr, ho, rfl⟩
    obtain ⟨h1, h2, h3⟩ := ih this.1 this.2.1 e
    exact ⟨h1, h2, by rw [h3, this.2.2]⟩

theorem contractEdges_ordered {b : Blossom} (es : List (Nat × Nat)) : ∀ {r r1 : DefaultGraph}, r.Reachable → Ordered r →
    es.foldlM b.contractEdge r = .ok r1 → r1.Reachable ∧ Ordered r1 ∧ r1.edges = es.foldl (cStep b) r.edges := by
  induction es with
  | nil => intro r r1 hr ho e; cases e; exact ⟨hr, ho, rfl⟩
  | cons x es ih =>
    intro r r1 hr ho e
    rw [List.foldlM_cons] at e
    obtain ⟨r2, e2, e⟩ := Out.bind_eq_ok.1 e
    have hadj : ∀ u v, r.toI.Adj u v ↔ (u, v) ∈ r.edges ∨ (v, u) ∈ r.edges :=
      fun u v => GraphI.InEdgeOrder.adj (g := r.toI) hr.lawful ho
    have : r2.Reachable ∧ Ordered r2 ∧ r2.edges = cStep b r.edges x := by
      unfold cStep
      rcases contractEdge_inv hr e2 with ⟨rfl, h1⟩ | ⟨h1, ⟨rfl, ha⟩ | h2⟩
      · rw [if_pos h1]; exact ⟨hr, ho, rfl⟩
      · rw [if_neg h1, if_pos ((hadj _ _).1 ha)]; exact ⟨hr, ho, rfl⟩
      · obtain ⟨k1, k2, k3, k4⟩ := addEdgeQ_ordered hr ho h2
        rw [if_neg h1, if_neg (fun h => k4 ((hadj _ _).2 h))]
        exact ⟨k1, k2, k3⟩
    obtain ⟨h1, h2, h3⟩ := ih this.1 this.2.1 e
    exact ⟨h1, h2, by rw [h3, this.2.2, List.foldl_cons]⟩

theorem contractGraph_edges {b : Blossom} {g : GraphI} {r : DefaultGraph} (e : b.contractGraph g = .ok r) :
    r.toI.InEdgeOrder ∧ r.toI.edges = g.edges.foldl (cStep b) [] := by
  unfold Blossom.contractGraph at e
  obtain ⟨r0, e0, e⟩ := Out.bind_eq_ok.1 e
  obtain ⟨r1, e1, e⟩ := Out.bind_eq_ok.1 e
  obtain ⟨a1, a2, a3⟩ := addNodeQ_ordered .new ordered_new e0
  obtain ⟨b1, b2, b3⟩ := contractNodes_ordered _ a1 a2 e1
  obtain ⟨c1, c2, c3⟩ := contractEdges_ordered _ b1 b2 e
  refine ⟨c2, ?_⟩
  show r.edges = _
  rw [c3, b3, a3]; rfl

/-- The edges of the contracted graph on a part of it. -/
theorem cStep_part {S S' : Nat → Bool} {b b' : Blossom} {φ : Nat → Nat} (hφ : Function.Injective φ) (hb : b'.path = b.path)
    (es : List (Nat × Nat)) : ∀ {acc : List (Nat × Nat)},
    (∀ x ∈ es, S' (kap b x.1) = S x.1 ∧ S' (kap b x.2) = S x.1) →
    (∀ x ∈ es, S x.1 = true → kap b' x.1 = φ (kap b x.1) ∧ kap b' x.2 = φ (kap b x.2)) →
    (es.filter (fun e => S e.1)).foldl (cStep b') ((acc.filter (fun e => S' e.1)).map (fun e => (φ e.1, φ e.2))) =
      ((es.foldl (cStep b) acc).filter (fun e => S' e.1)).map (fun e => (φ e.1, φ e.2)) := by
  induction es with
  | nil => intro acc _ _; rfl
  | cons x es ih =>
    intro acc h1 h2
    have i := @ih (cStep b acc x) (fun y hy => h1 y (List.mem_cons_of_mem _ hy)) (fun y hy => h2 y (List.mem_cons_of_mem _ hy))
    obtain ⟨k1, k2⟩ := h1 x List.mem_cons_self
    rw [List.foldl_cons]
    by_cases hx : S x.1 = true
    · rw [List.filter_cons_of_pos (by simpa using hx), List.foldl_cons, ← i]
      congr 1
      obtain ⟨l1, l2⟩ := h2 x List.mem_cons_self hx
      unfold cStep
      rw [hb, l1, l2]
      by_cases hp : x.1 ∈ b.path ∧ x.2 ∈ b.path
      · rw [if_pos hp, if_pos hp]
      · rw [if_neg hp, if_neg hp]
        have key : ∀ u v, S' u = true → ((φ u, φ v) ∈ (acc.filter (fun e => S' e.1)).map (fun e => (φ e.1, φ e.2)) ↔ (u, v) ∈ acc) := by
          intro u v hu
          rw [List.mem_map]
          constructor
          · rintro ⟨⟨c, d⟩, hcd, e⟩
            simp only [Prod.mk.injEq, hφ.eq_iff] at e
            obtain ⟨rfl, rfl⟩ := e
            exact (List.mem_filter.1 hcd).1
          · intro hm
            exact ⟨(u, v), List.mem_filter.2 ⟨hm, by simpa using hu⟩, rfl⟩
        simp only [key _ _ (k1.trans hx), key _ _ (k2.trans hx)]
        split
        · rfl
        · rw [List.filter_append, List.map_append, List.filter_cons_of_pos (by simpa using k1.trans hx)]; rfl
    · rw [List.filter_cons_of_neg (by simpa using hx), ← i]
      congr 2
      unfold cStep
      split
      · rfl
      · split
        · rfl
        · rw [List.filter_append, List.filter_cons_of_neg (by simpa [k1] using hx)]; simp

/-- Contracting does nothing to edges that are not at the blossom. -/
theorem cStep_out {b : Blossom} (es : List (Nat × Nat)) : ∀ {acc : List (Nat × Nat)}, (∀ x ∈ es, x.1 ∉ b.path ∧ x.2 ∉ b.path) →
    (acc ++ es).Pairwise (fun a c => ¬ SameEdge a c) → es.foldl (cStep b) acc = acc ++ es := by
  induction es with
  | nil => intro acc _ _; simp
  | cons x es ih =>
    intro acc h1 h2
    obtain ⟨k1, k2⟩ := h1 x List.mem_cons_self
    have : cStep b acc x = acc ++ [x] := by
      unfold cStep
      rw [if_neg (fun h => k1 h.1), kap_out k1, kap_out k2, if_neg]
      rw [List.pairwise_append] at h2
      rintro (h | h)
      · exact h2.2.2 _ h _ List.mem_cons_self (.inl ⟨rfl, rfl⟩)
      · exact h2.2.2 _ h _ List.mem_cons_self (.inr ⟨rfl, rfl⟩)
    rw [List.foldl_cons, this, ih (fun y hy => h1 y (List.mem_cons_of_mem _ hy)) (by simpa using h2)]
    simp

theorem edges_pairwise {g : GraphI} (hg : g.Lawful) (he : g.edges.Nodup) : g.edges.Pairwise (fun a c => ¬ SameEdge a c) := by
  have key : ∀ es : List (Nat × Nat), es.Nodup → (∀ u v, u ≠ v → es.count (u, v) + es.count (v, u) ≤ 1) → es.Pairwise (fun a c => ¬ SameEdge a c) := by
    intro es
    induction es with
    | nil => intros; exact .nil
    | cons x es ih =>
      intro h1 h2
      rw [List.nodup_cons] at h1
      refine .cons (fun y hy => ?_) (ih h1.2 (fun u v hne => ?_))
      · rintro (⟨e1, e2⟩ | ⟨e1, e2⟩)
        · exact h1.1 ((Prod.ext e1 e2 : x = y) ▸ hy)
        · by_cases hne : x.1 = x.2
          · exact h1.1 ((Prod.ext (by rw [hne, e2]) (by rw [← hne, e1]) : x = y) ▸ hy)
          · have := h2 x.1 x.2 hne
            have a : 0 < (x :: es).count (x.1, x.2) := List.count_pos_iff.2 List.mem_cons_self
            have b : 0 < (x :: es).count (x.2, x.1) := List.count_pos_iff.2 (List.mem_cons_of_mem _ (by rw [e1, e2]; exact hy))
            omega
      · have := h2 u v hne
        rw [List.count_cons, List.count_cons] at this
        omega
  exact key _ he hg.edges_once

section
variable {S : Nat → Bool} {g : GraphI} {p p' : Pairing} {b : Blossom} {base : Nat} {r : DefaultGraph}

/-- The nodes of `S`, with the node of the blossom on the side where the blossom was. -/
def sideOf (S : Nat → Bool) (b : Blossom) (base : Nat) (x : Nat) : Bool := if x = b.id then S base else S x

theorem sideOf_id : sideOf S b base b.id = S base := if_pos rfl
theorem sideOf_ne {x : Nat} (h : x ≠ b.id) : sideOf S b base x = S x := if_neg h

/-- All nodes of a chain are on the same side. -/
theorem chain_side (hc : g.ClosedOn S) {l : List Nat} (h : l.IsChain g.Adj) : ∀ x ∈ l, ∀ y ∈ l, S x = S y := by
  induction l with
  | nil => intro x hx; cases hx
  | cons a l ih =>
    have : ∀ x ∈ a :: l, S x = S a := by
      intro x hx
      rcases List.mem_cons.1 hx with rfl | hx
      · rfl
      · cases l with
        | nil => cases hx
        | cons c l =>
          rw [List.isChain_cons_cons] at h
          rw [ih h.2 x hx c List.mem_cons_self, hc a c h.1]
    intro x hx y hy
    rw [this x hx, this y hy]

theorem sideOf_kap (hc : g.ClosedOn S) (hcon : Con g p b base r.toI p') (hcyc : Cyclic g b.path) {x : Nat} (hx : x ∈ g.nodes) :
    sideOf S b base (kap b x) = S x := by
  by_cases hb : x ∈ b.path
  · rw [kap_in hb, sideOf_id]
    exact chain_side hc hcyc.chain _ hcon.flower.base_mem _ hb
  · rw [kap_out hb, sideOf_ne (hcon.free x hx hb)]

theorem closed_con (hc : g.ClosedOn S) (hcon : Con g p b base r.toI p') (hcyc : Cyclic g b.path) : r.toI.ClosedOn (sideOf S b base) := by
  intro u v a
  by_cases hne : u = v
  · rw [hne]
  · obtain ⟨x, y, hxy, rfl, rfl⟩ := (hcon.adj' u v hne).1 a
    rw [sideOf_kap hc hcon hcyc (hcon.lawful.adj_src hxy), sideOf_kap hc hcon hcyc (hcon.lawful.adj_mem _ _ hxy), hc x y hxy]

/-- A blossom outside of the part: contracting it does nothing to the part. -/
theorem part_con_out (hc : g.ClosedOn S) (ho : g.InEdgeOrder) (he : g.edges.Nodup) (hcon : Con g p b base r.toI p') (hcyc : Cyclic g b.path)
    (hr : b.contractGraph g = .ok r) (hb : S base = false) :
    GraphI.Along _root_.id (r.toI.part (sideOf S b base)) (g.part S) ∧
      List.Forall₂ (EdgeRen _root_.id) (r.toI.part (sideOf S b base)).edges (g.part S).edges := by
  obtain ⟨hor, hre⟩ := contractGraph_edges hr
  have hc' := closed_con hc hcon hcyc
  have hout : ∀ x ∈ b.path, S x = false := fun x hx => by
    rw [← chain_side hc hcyc.chain _ hcon.flower.base_mem _ hx]; exact hb
  have mem : ∀ x ∈ g.edges, x.1 ∈ g.nodes ∧ x.2 ∈ g.nodes ∧ S x.1 = S x.2 := fun x hx => by
    have := hcon.lawful.edges_adj x.1 x.2 hx
    exact ⟨hcon.lawful.adj_src this, hcon.lawful.adj_mem _ _ this, hc _ _ this⟩
  refine along_of_edges Function.injective_id (GraphI.part_lawful hcon.lawful' hc') (GraphI.part_lawful hcon.lawful hc)
    (GraphI.part_order hcon.lawful' hor hc') (GraphI.part_order hcon.lawful ho hc) ?_ ?_
  · show g.nodes.filter S = (r.toI.nodes.filter _).map _root_.id
    rw [hcon.nodes', List.map_id, List.filter_cons_of_neg (by rw [sideOf_id, hb]; simp), List.filter_filter]
    refine List.filter_congr (fun x hx => ?_)
    by_cases hxb : x ∈ b.path
    · rw [hout x hxb]; simp [hxb]
    · rw [sideOf_ne (hcon.free x hx hxb)]; simp [hxb]
  · show g.edges.filter _ = (r.toI.edges.filter _).map _
    rw [hre]
    have := cStep_part (S := S) (S' := sideOf S b base) (b := b) (b' := b) Function.injective_id rfl g.edges (acc := [])
      (fun x hx => ?_) (fun x hx _ => ⟨rfl, rfl⟩)
    · rw [← this]
      show _ = List.foldl (cStep b) [] _
      rw [cStep_out _ (fun x hx => ?_)]
      · rfl
      · exact (edges_pairwise hcon.lawful he).sublist (by simpa using List.filter_sublist)
      · obtain ⟨h1, h2⟩ := List.mem_filter.1 hx
        obtain ⟨-, -, h3⟩ := mem x h1
        refine ⟨fun h => ?_, fun h => ?_⟩
        · have := hout _ h; rw [h2] at this; cases this
        · have := hout _ h; rw [← h3, h2] at this; cases this
    · obtain ⟨h1, h2, h3⟩ := mem x hx
      rw [sideOf_kap hc hcon hcyc h1, sideOf_kap hc hcon hcyc h2, h3]
      exact ⟨rfl, rfl⟩

/-- A blossom in the part: contracting it in the graph and contracting it in the part. -/
theorem part_con_in {b' : Blossom} {q q' : Pairing} {r' : DefaultGraph} {ψ : Nat → Nat} (hψ : Function.Injective ψ) (hc : g.ClosedOn S)
    (hcon : Con g p b base r.toI p') (hcyc : Cyclic g b.path) (hr : b.contractGraph g = .ok r) (hb : S base = true)
    (hcon' : Con (g.part S) q b' base r'.toI q') (hr' : b'.contractGraph (g.part S) = .ok r') (hbb : b'.path = b.path)
    (hid : ψ b.id = b'.id) (hψS : ∀ v ∈ (g.part S).nodes, ψ v = v) :
    GraphI.Along ψ (r.toI.part (sideOf S b base)) r'.toI ∧
      List.Forall₂ (EdgeRen ψ) (r.toI.part (sideOf S b base)).edges r'.toI.edges := by
  obtain ⟨hor, hre⟩ := contractGraph_edges hr
  obtain ⟨hor', hre'⟩ := contractGraph_edges hr'
  have hc' := closed_con hc hcon hcyc
  have mem : ∀ x ∈ g.edges, x.1 ∈ g.nodes ∧ x.2 ∈ g.nodes ∧ S x.1 = S x.2 := fun x hx => by
    have := hcon.lawful.edges_adj x.1 x.2 hx
    exact ⟨hcon.lawful.adj_src this, hcon.lawful.adj_mem _ _ this, hc _ _ this⟩
  have hk : ∀ x ∈ (g.part S).nodes, kap b' x = ψ (kap b x) := by
    intro x hx
    by_cases hxb : x ∈ b.path
    · rw [kap_in hxb, kap_in (by rw [hbb]; exact hxb), hid]
    · rw [kap_out hxb, kap_out (by rw [hbb]; exact hxb), hψS x hx]
  refine along_of_edges hψ (GraphI.part_lawful hcon.lawful' hc') hcon'.lawful' (GraphI.part_order hcon.lawful' hor hc') hor' ?_ ?_
  · show r'.toI.nodes = (r.toI.nodes.filter _).map ψ
    rw [hcon.nodes', hcon'.nodes', List.filter_cons_of_pos (by rw [sideOf_id, hb]), List.map_cons, hid]
    congr 1
    show (g.nodes.filter S).filter _ = _
    rw [hbb, List.filter_filter, List.filter_filter]
    have : g.nodes.filter (fun a => sideOf S b base a && !b.path.contains a) = g.nodes.filter (fun a => (!b.path.contains a) && S a) := by
      refine List.filter_congr (fun x hx => ?_)
      by_cases hxb : x ∈ b.path
      · simp [hxb]
      · rw [sideOf_ne (hcon.free x hx hxb)]; simp [hxb]
    rw [this]
    symm
    rw [show g.nodes.filter (fun a => (!b.path.contains a) && S a) = (g.nodes.filter (fun a => (!b.path.contains a) && S a)).map _root_.id by
      rw [List.map_id], List.map_map]
    refine List.map_congr_left (fun x hx => ?_)
    rw [List.mem_filter, Bool.and_eq_true] at hx
    exact hψS x (GraphI.part_mem.2 ⟨hx.1, hx.2.2⟩)
  · show r'.toI.edges = (r.toI.edges.filter _).map _
    rw [hre, hre']
    refine cStep_part (S := S) (S' := sideOf S b base) (b := b) (b' := b') hψ hbb g.edges (acc := []) (fun x hx => ?_) (fun x hx hS => ?_)
    · obtain ⟨h1, h2, h3⟩ := mem x hx
      rw [sideOf_kap hc hcon hcyc h1, sideOf_kap hc hcon hcyc h2, h3]
      exact ⟨rfl, rfl⟩
    · obtain ⟨h1, h2, h3⟩ := mem x hx
      exact ⟨hk _ (GraphI.part_mem.2 ⟨h1, hS⟩), hk _ (GraphI.part_mem.2 ⟨h2, by rw [← h3]; exact hS⟩)⟩

end
end Gamma
