import Verif.Proofs.GraphMore
/-
Insertion order, edge-list conversion, equality, round trips.
-/
namespace Gamma

namespace DefaultGraph
variable {g : DefaultGraph}

theorem incident_append (v : Nat) (es fs : List (Nat × Nat)) :
    incident v (es ++ fs) = incident v es ++ incident v fs := by simp [incident]

/-- The neighbor lists are the incident edges in insertion order. -/
def Ordered (g : DefaultGraph) : Prop := ∀ v ∈ g.nodes, g.neighbors v = .ok (incident v g.edges)

theorem opInv_ordered : OpInv Ordered where
  node := fun g g' id hw hsy hp hm a v hv => by
    rw [a.edges]
    by_cases h : v = id
    · subst h
      rw [a.nb_new]
      congr 1
      symm
      unfold incident
      rw [List.flatMap_eq_nil_iff]
      intro e he
      have h1 : v ≠ e.1 := by
        rintro rfl; exact hm (hw.adj_src (hsy.edges_adj e.1 e.2 he))
      have h2 : v ≠ e.2 := by
        rintro rfl; exact hm (hsy.adj_mem _ _ (hsy.edges_adj e.1 e.2 he))
      simp [h1, h2]
    · rw [a.nb_old v h]
      rw [a.nodes] at hv
      exact hp v (by simpa [h] using hv)
  edge := fun g g' s t hw hsy hp hs ht hna a v hv => by
    rw [a.nodes] at hv
    rw [a.edges, a.nb v _ (hp v hv), incident_append]
    simp [incident]

theorem EdgeExact.adj_iff_same (h : g.WF) (hs : g.Sym) (he : EdgeExact g) (a b : Nat) :
    g.toI.Adj a b ↔ ∃ e ∈ g.edges, SameEdge e (a, b) := by
  constructor
  · intro ha
    rcases he.adj_edges a b ha with h1 | h1
    · exact ⟨_, h1, .inl ⟨rfl, rfl⟩⟩
    · exact ⟨_, h1, .inr ⟨rfl, rfl⟩⟩
  · rintro ⟨⟨c, d⟩, h1, (⟨rfl, rfl⟩ | ⟨rfl, rfl⟩)⟩
    · exact hs.edges_adj _ _ h1
    · exact hs.adj_symm _ _ (hs.edges_adj _ _ h1)

/-- The abstraction relation between a graph and its log. -/
structure Logged (g : DefaultGraph) (s : List Nat × List (Nat × Nat)) : Prop where
  good : Good (fun g => Ordered g ∧ EdgeExact g) g
  nodes : g.nodes = s.1
  edges : g.edges = s.2

theorem opInv_and {P Q : DefaultGraph → Prop} (hP : OpInv P) (hQ : OpInv Q) :
    OpInv (fun g => P g ∧ Q g) where
  node := fun g g' id a b c d e => ⟨hP.node g g' id a b c.1 d e, hQ.node g g' id a b c.2 d e⟩
  edge := fun g g' s t a b c d e f k =>
    ⟨hP.edge g g' s t a b c.1 d e f k, hQ.edge g g' s t a b c.2 d e f k⟩

theorem edgeExact_new : EdgeExact DefaultGraph.new := by
  refine ⟨?_, by simp [DefaultGraph.new]⟩
  rintro u v ⟨l, hl, -⟩; simp [toI, neighbors, indexFor, DefaultGraph.new] at hl

theorem ordered_new : Ordered DefaultGraph.new := by
  intro v hv; simp [DefaultGraph.new] at hv

theorem logged_new : Logged .new ([], []) :=
  ⟨Good.new ⟨ordered_new, edgeExact_new⟩, rfl, rfl⟩

theorem Logged.perform {s : List Nat × List (Nat × Nat)} (h : Logged g s) (op : GraphOp) :
    Logged (g.perform op) (op.log s) := by
  obtain ⟨hg, hn, he⟩ := h
  have hg' := hg
  obtain ⟨hw, hs, ho, hx⟩ := hg
  cases op with
  | node id =>
    have hgood := hg'.addNode (opInv_and opInv_ordered opInv_edgeExact) id
    refine ⟨hgood, ?_, ?_⟩
    · unfold DefaultGraph.perform GraphOp.log
      by_cases hm : id ∈ g.nodes
      · simp [hw.addNode_dup hm, ← hn, hm]
      · obtain ⟨-, a⟩ := hw.addNode_new hm
        simp [a.nodes, ← hn, hm]
    · unfold DefaultGraph.perform GraphOp.log
      by_cases hm : id ∈ g.nodes
      · simp [hw.addNode_dup hm, ← hn, hm, he]
      · obtain ⟨-, a⟩ := hw.addNode_new hm
        simp [a.edges, ← hn, hm, he]
  | edge a b =>
    have hgood := hg'.addEdge (opInv_and opInv_ordered opInv_edgeExact) a b
    have key : (a ∈ s.1 ∧ b ∈ s.1 ∧ ∀ e ∈ s.2, ¬ SameEdge e (a, b)) ↔
        (a ∈ g.nodes ∧ b ∈ g.nodes ∧ ¬ g.toI.Adj a b) := by
      rw [hx.adj_iff_same hw hs, hn, he]; simp
    refine ⟨hgood, ?_, ?_⟩ <;> unfold DefaultGraph.perform GraphOp.log <;>
      by_cases h1 : a ∈ g.nodes <;> by_cases h2 : b ∈ g.nodes <;> by_cases h3 : g.toI.Adj a b
    all_goals simp only [key, h1, h2, h3, not_true_eq_false, not_false_eq_true, and_true, and_false,
      true_and, false_and, if_false, if_true]
    all_goals first
      | (rw [hw.addEdge_missing_left h1]; first | exact hn | exact he)
      | (rw [hw.addEdge_missing_right h1 h2]; first | exact hn | exact he)
      | (rw [hw.addEdge_dup h1 h2 h3]; first | exact hn | exact he)
      | (obtain ⟨-, w⟩ := hw.addEdge_new h1 h2 h3
         first
          | (rw [w.nodes]; exact hn)
          | (rw [w.edges, he]))

theorem logged_run (ops : List GraphOp) :
    Logged (ops.foldl DefaultGraph.perform .new) (ops.foldl GraphOp.log ([], [])) := by
  suffices H : ∀ (g : DefaultGraph) s, Logged g s →
      Logged (ops.foldl DefaultGraph.perform g) (ops.foldl GraphOp.log s) from H _ _ logged_new
  induction ops with
  | nil => intro g s h; exact h
  | cons op ops ih => intro g s h; exact ih _ _ (h.perform op)

/-! ### Edge-list conversion -/

theorem eraseDups_append_singleton (l : List Nat) (a : Nat) :
    (l ++ [a]).eraseDups = if a ∈ l.eraseDups then l.eraseDups else l.eraseDups ++ [a] := by
  rw [List.eraseDups_append]
  by_cases h : a ∈ l
  · simp [List.removeAll, h, List.mem_eraseDups]
  · simp [List.removeAll, h, List.mem_eraseDups, List.eraseDups_cons]

theorem addIfMissing (h : Good (fun g => Ordered g ∧ EdgeExact g) g) (a : Nat) :
    ∃ g', (if !g.hasNode a then g.addNodeQ a else .ok g) = .ok g' ∧
      Good (fun g => Ordered g ∧ EdgeExact g) g' ∧
      g'.nodes = (if a ∈ g.nodes then g.nodes else g.nodes ++ [a]) ∧ g'.edges = g.edges := by
  have hw := h.1
  by_cases hm : a ∈ g.nodes
  · refine ⟨g, ?_, h, by simp [hm], rfl⟩
    simp [(hw.hasNode_iff a).2 hm]
  · obtain ⟨g', h1, h2, h3⟩ := addNodeQ_new hw hm
    have hf : g.hasNode a = false := by
      have := (hw.hasNode_iff a).not.2 hm; simpa using this
    refine ⟨g', by simp [hf, h1], h.addNodeQ (opInv_and opInv_ordered opInv_edgeExact) h1, ?_, h3.edges⟩
    simp [h3.nodes, hm]

theorem tryFromEdgesStep_cases (h : Good (fun g => Ordered g ∧ EdgeExact g) g) (e : Nat × Nat)
    (pre : List (Nat × Nat)) (hn : g.nodes = (endpoints pre).eraseDups) (he : g.edges = pre) :
    ((∃ f ∈ pre, SameEdge f e) ∧ tryFromEdgesStep g e = .err (.duplicateEdge e.1 e.2)) ∨
    ((∀ f ∈ pre, ¬ SameEdge f e) ∧ ∃ g', tryFromEdgesStep g e = .ok g' ∧
      Good (fun g => Ordered g ∧ EdgeExact g) g' ∧
      g'.nodes = (endpoints (pre ++ [e])).eraseDups ∧ g'.edges = pre ++ [e]) := by
  obtain ⟨g1, e1, k1, n1, d1⟩ := addIfMissing h e.1
  obtain ⟨g2, e2, k2, n2, d2⟩ := addIfMissing k1 e.2
  have hn2 : g2.nodes = (endpoints (pre ++ [e])).eraseDups := by
    have : endpoints (pre ++ [e]) = (endpoints pre ++ [e.1]) ++ [e.2] := by simp [endpoints]
    rw [this, eraseDups_append_singleton, eraseDups_append_singleton, ← hn, n2, n1]
  have he2 : g2.edges = pre := by rw [d2, d1, he]
  have hs : e.1 ∈ g2.nodes := by rw [hn2, List.mem_eraseDups]; simp [endpoints]
  have ht : e.2 ∈ g2.nodes := by rw [hn2, List.mem_eraseDups]; simp [endpoints]
  have estep : tryFromEdgesStep g e = g2.addEdgeQ e.1 e.2 := by
    unfold tryFromEdgesStep; rw [e1, Out.ok_bind, e2, Out.ok_bind]
  have hadj := k2.2.2.2.adj_iff_same k2.1 k2.2.1 e.1 e.2
  rw [he2] at hadj
  by_cases ha : g2.toI.Adj e.1 e.2
  · left
    exact ⟨hadj.1 ha, by rw [estep]; exact addEdgeQ_dup k2.1 hs ht ha⟩
  · right
    obtain ⟨g', h1, h2, h3⟩ := addEdgeQ_new k2.1 hs ht ha
    refine ⟨?_, g', by rw [estep, h1], k2.addEdgeQ (opInv_and opInv_ordered opInv_edgeExact) h1, ?_, ?_⟩
    · intro f hf hsame; exact ha (hadj.2 ⟨f, hf, hsame⟩)
    · rw [h3.nodes, hn2]
    · rw [h3.edges, he2]

theorem tryFromEdges_aux (es pre : List (Nat × Nat)) (h : Good (fun g => Ordered g ∧ EdgeExact g) g)
    (hn : g.nodes = (endpoints pre).eraseDups) (he : g.edges = pre)
    (hp : pre.Pairwise (fun e f => ¬ SameEdge e f)) :
    ((pre ++ es).Pairwise (fun e f => ¬ SameEdge e f) ∧ ∃ g', es.foldlM tryFromEdgesStep g = .ok g' ∧
      Good (fun g => Ordered g ∧ EdgeExact g) g' ∧
      g'.nodes = (endpoints (pre ++ es)).eraseDups ∧ g'.edges = pre ++ es) ∨
    (∃ mid e post, es = mid ++ e :: post ∧ (pre ++ mid).Pairwise (fun e f => ¬ SameEdge e f) ∧
      (∃ f ∈ pre ++ mid, SameEdge f e) ∧
      es.foldlM tryFromEdgesStep g = .err (.duplicateEdge e.1 e.2)) := by
  induction es generalizing pre g with
  | nil => left; exact ⟨by simpa using hp, g, rfl, h, by simpa using hn, by simpa using he⟩
  | cons e es ih =>
    rw [List.foldlM_cons]
    rcases tryFromEdgesStep_cases h e pre hn he with ⟨⟨f, hf, hs⟩, h1⟩ | ⟨hno, g', h1, k, n', d'⟩
    · right
      exact ⟨[], e, es, rfl, by simpa using hp, ⟨f, by simpa using hf, hs⟩, by rw [h1]; rfl⟩
    · have hp' : (pre ++ [e]).Pairwise (fun e f => ¬ SameEdge e f) := by
        rw [List.pairwise_append]
        exact ⟨hp, by simp, fun a ha b hb => by simp at hb; subst hb; exact hno a ha⟩
      rw [h1, Out.ok_bind]
      rcases ih (pre ++ [e]) k n' d' hp' with ⟨q1, g2, q2, q3, q4, q5⟩ | ⟨mid, x, post, q1, q2, q3, q4⟩
      · left
        simp only [List.append_assoc, List.singleton_append] at q1 q4 q5
        exact ⟨q1, g2, q2, q3, q4, q5⟩
      · right
        simp only [List.append_assoc, List.singleton_append] at q2 q3
        exact ⟨e :: mid, x, post, by simp [q1], q2, q3, q4⟩

/-! ### Equality -/

/-- The undirected edge as an ordered pair. -/
def canon (e : Nat × Nat) : Nat × Nat := (min e.1 e.2, max e.1 e.2)

theorem canon_eq_iff (e f : Nat × Nat) : canon e = canon f ↔ SameEdge e f := by
  obtain ⟨a, b⟩ := e
  obtain ⟨c, d⟩ := f
  simp only [canon, SameEdge, Prod.mk.injEq]
  omega

theorem EdgeExact.nodup_canon (hs : g.Sym) (he : EdgeExact g) : (g.edges.map canon).Nodup := by
  have hn := he.nodup
  rw [List.Nodup, List.pairwise_map]
  refine List.Pairwise.imp_of_mem ?_ hn
  rintro ⟨a, b⟩ ⟨c, d⟩ h1 h2 hne heq
  rw [canon_eq_iff] at heq
  rcases heq with ⟨rfl, rfl⟩ | ⟨h3, h4⟩
  · exact hne rfl
  · simp only at h3 h4
    subst h3; subst h4
    by_cases hab : a = b
    · subst hab; exact hne rfl
    · have := hs.edges_once a b hab
      have c1 := List.count_pos_iff.2 h1
      have c2 := List.count_pos_iff.2 h2
      omega

theorem EdgeExact.mem_canon (h : g.WF) (hs : g.Sym) (he : EdgeExact g) (a b : Nat) :
    canon (a, b) ∈ g.edges.map canon ↔ g.toI.Adj a b := by
  rw [he.adj_iff_same h hs, List.mem_map]
  constructor
  · rintro ⟨e, h1, h2⟩; exact ⟨e, h1, (canon_eq_iff _ _).1 h2⟩
  · rintro ⟨e, h1, h2⟩; exact ⟨e, h1, (canon_eq_iff _ _).2 h2⟩

theorem eqEdges_eq {other : DefaultGraph} (h : other.WF) (es : List (Nat × Nat))
    (hm : ∀ e ∈ es, e.1 ∈ other.nodes ∧ e.2 ∈ other.nodes) :
    ∃ b, eqEdges other es = .ok b ∧ (b = true ↔ ∀ e ∈ es, other.toI.Adj e.1 e.2) := by
  induction es with
  | nil => exact ⟨true, rfl, by simp⟩
  | cons e es ih =>
    obtain ⟨s, t⟩ := e
    obtain ⟨h1, h2⟩ := hm (s, t) (by simp)
    obtain ⟨_, row, -, -, -, hn⟩ := h.row h1
    have hE := h.hasEdge_eq hn h2
    obtain ⟨b, hb1, hb2⟩ := ih (fun e he => hm e (by simp [he]))
    have ha := h.adj_iff (v := t) hn
    by_cases hc : t ∈ row
    · refine ⟨b, ?_, ?_⟩
      · simp [eqEdges, hE, hc, hb1]
      · rw [hb2]; simp [ha.2 hc]
    · refine ⟨false, ?_, ?_⟩
      · simp [eqEdges, hE, hc]
      · simp; intro hx; exact absurd (ha.1 hx) hc

/-- `==` never fails and what it tests, on every two well-formed graphs. -/
theorem eq_cases {h : DefaultGraph} (wg : g.WF) (sg : g.Sym) (wh : h.WF) :
    ∃ b, g.eq h = .ok b ∧ (b = true ↔ g.size = h.size ∧ (∀ v, v ∈ g.nodes ↔ v ∈ h.nodes) ∧
      ∀ e ∈ g.edges, h.toI.Adj e.1 e.2) := by
  unfold DefaultGraph.eq
  by_cases h1 : g.size = h.size
  swap
  · exact ⟨false, by simp [h1], by simp [h1]⟩
  by_cases h2 : g.order = h.order
  swap
  · refine ⟨false, by simp [h1, h2], ?_⟩
    simp only [Bool.false_eq_true, false_iff, not_and]
    intro _ hc
    exact absurd (List.Perm.length_eq ((List.perm_ext_iff_of_nodup wg.nodup wh.nodup).2 hc)) h2
  by_cases h3 : ∀ v ∈ g.nodes, v ∈ h.nodes
  · have hall : g.nodes.all (fun id => h.hasNode id) = true := by
      rw [List.all_eq_true]; intro v hv; exact (wh.hasNode_iff v).2 (h3 v hv)
    have hperm : g.nodes.Perm h.nodes :=
      (List.Nodup.subperm wg.nodup h3).perm_of_length_le (by
        have : h.nodes.length = g.nodes.length := h2.symm
        omega)
    have hm : ∀ e ∈ g.edges, e.1 ∈ h.nodes ∧ e.2 ∈ h.nodes := by
      intro e he
      have := sg.edges_adj e.1 e.2 he
      exact ⟨h3 _ (wg.adj_src this), h3 _ (sg.adj_mem _ _ this)⟩
    obtain ⟨b, hb1, hb2⟩ := eqEdges_eq wh g.edges hm
    refine ⟨b, by simp only [h1, h2, hall]; simpa using hb1, ?_⟩
    rw [hb2]
    exact ⟨fun hx => ⟨h1, fun v => hperm.mem_iff, hx⟩, fun hx => hx.2.2⟩
  · have hall : g.nodes.all (fun id => h.hasNode id) = false := by
      rw [List.all_eq_false]
      push Not at h3
      obtain ⟨v, hv, hv'⟩ := h3
      exact ⟨v, hv, by rw [wh.hasNode_iff]; exact hv'⟩
    refine ⟨false, by simp only [h1, h2, hall]; simp, ?_⟩
    simp only [Bool.false_eq_true, false_iff, not_and]
    intro _ hc
    exact absurd (fun v hv => (hc v).1 hv) h3

theorem eq_iff {h : DefaultGraph} (wg : g.WF) (sg : g.Sym) (eg : EdgeExact g)
    (wh : h.WF) (sh : h.Sym) (eh : EdgeExact h) :
    ∃ b, g.eq h = .ok b ∧ (b = true ↔ (∀ v, v ∈ g.nodes ↔ v ∈ h.nodes) ∧
      ∀ u v, g.toI.Adj u v ↔ h.toI.Adj u v) := by
  obtain ⟨b, h1, h2⟩ := eq_cases wg sg wh
  refine ⟨b, h1, h2.trans ?_⟩
  constructor
  · rintro ⟨hsz, hn, he⟩
    refine ⟨hn, ?_⟩
    have hsub : ∀ x ∈ g.edges.map canon, x ∈ h.edges.map canon := by
      intro x hx
      obtain ⟨e, he1, rfl⟩ := List.mem_map.1 hx
      exact (eh.mem_canon wh sh e.1 e.2).2 (he e he1)
    have hperm : (g.edges.map canon).Perm (h.edges.map canon) :=
      (List.Nodup.subperm (eg.nodup_canon sg) hsub).perm_of_length_le (by
        simp only [List.length_map]
        have : g.edges.length = h.edges.length := hsz
        omega)
    intro u v
    rw [← eg.mem_canon wg sg, ← eh.mem_canon wh sh]
    exact hperm.mem_iff
  · rintro ⟨hn, ha⟩
    refine ⟨?_, hn, fun e he => (ha _ _).1 (sg.edges_adj _ _ he)⟩
    have hperm : (g.edges.map canon).Perm (h.edges.map canon) := by
      rw [List.perm_ext_iff_of_nodup (eg.nodup_canon sg) (eh.nodup_canon sh)]
      have key : ∀ (k : DefaultGraph) (x : Nat × Nat), x ∈ k.edges.map canon → canon x = x := by
        intro k x hx
        obtain ⟨e, -, rfl⟩ := List.mem_map.1 hx
        simp [canon]
      intro x
      constructor
      · intro hx
        have hc := key _ _ hx
        rw [← hc] at hx ⊢
        exact (eh.mem_canon wh sh x.1 x.2).2 ((ha _ _).1 ((eg.mem_canon wg sg x.1 x.2).1 hx))
      · intro hx
        have hc := key _ _ hx
        rw [← hc] at hx ⊢
        exact (eg.mem_canon wg sg x.1 x.2).2 ((ha _ _).2 ((eh.mem_canon wh sh x.1 x.2).1 hx))
    have := hperm.length_eq
    simpa [DefaultGraph.size] using this

end DefaultGraph
end Gamma
