import Verif.Proofs.DfsSharp
import Verif.Proofs.GraphBuild
import Verif.Proofs.Reachable
/-
Every order of the calls of `add_edge` that adds the edges of a path from its end to its start makes a depth-first traversal follow
the path.
-/
namespace Gamma

/-- The edges of a path. -/
def pathEdges (P : List Nat) : List (Nat × Nat) := P.zip P.tail

theorem pathEdges_mem {P : List Nat} {e : Nat × Nat} (h : e ∈ pathEdges P) : e.1 ∈ P ∧ e.2 ∈ P := by
  have := List.of_mem_zip (a := e.1) (b := e.2) h
  exact ⟨this.1, List.mem_of_mem_tail this.2⟩

theorem pathEdges_cons (a b : Nat) (P : List Nat) : pathEdges (a :: b :: P) = (a, b) :: pathEdges (b :: P) := rfl

theorem pathEdges_adj {R : Nat → Nat → Prop} {P : List Nat} (h : P.IsChain R) : ∀ e ∈ pathEdges P, R e.1 e.2 := by
  induction P with
  | nil => simp [pathEdges]
  | cons a P ih =>
    cases P with
    | nil => simp [pathEdges]
    | cons b P =>
      rw [List.isChain_cons_cons] at h
      intro e he
      rw [pathEdges_cons, List.mem_cons] at he
      rcases he with rfl | he
      · exact h.1
      · exact ih h.2 e he

theorem incident_eq_nil {v : Nat} {es : List (Nat × Nat)} (h : ∀ e ∈ es, e.1 ≠ v ∧ e.2 ≠ v) : incident v es = [] := by
  unfold incident
  rw [List.flatMap_eq_nil_iff]
  intro e he
  simp [Ne.symm (h e he).1, Ne.symm (h e he).2]

theorem incident_pathEdges {P : List Nat} (hP : P.Nodup) {v w : Nat} (h : nextIn P v = some w) :
    ∃ l, incident v (pathEdges P).reverse = w :: l := by
  induction P with
  | nil => simp [nextIn] at h
  | cons a P ih =>
    cases P with
    | nil => simp [nextIn] at h
    | cons b P =>
      rw [pathEdges_cons, List.reverse_cons, DefaultGraph.incident_append]
      unfold nextIn at h
      have hn := List.nodup_cons.1 hP
      split at h
      · rename_i e
        injection h with h
        subst h e
        have hvb : v ≠ b := by rintro rfl; simp at hn
        refine ⟨[], ?_⟩
        rw [incident_eq_nil]
        · simp [incident, hvb]
        · intro e he
          have := pathEdges_mem (List.mem_reverse.1 he)
          exact ⟨fun hc => hn.1 (hc ▸ this.1), fun hc => hn.1 (hc ▸ this.2)⟩
      · obtain ⟨l, hl⟩ := ih hn.2 h
        rw [hl]
        exact ⟨_, rfl⟩

theorem pathEdges_pairwise {P : List Nat} (hP : P.Nodup) : (pathEdges P).Pairwise (fun e f => ¬ SameEdge e f) := by
  induction P with
  | nil => simp [pathEdges]
  | cons a P ih =>
    cases P with
    | nil => simp [pathEdges]
    | cons b P =>
      have hn := List.nodup_cons.1 hP
      rw [pathEdges_cons, List.pairwise_cons]
      refine ⟨?_, ih hn.2⟩
      intro e he hs
      have := pathEdges_mem he
      rcases hs with ⟨h1, -⟩ | ⟨h1, -⟩
      · have h1 : a = e.1 := h1
        exact hn.1 (h1 ▸ this.1)
      · have h1 : a = e.2 := h1
        exact hn.1 (h1 ▸ this.2)

/-- The calls that build the graph: first the nodes, then the edges. -/
def callsFor (ns : List Nat) (es : List (Nat × Nat)) : List GraphOp := ns.map .node ++ es.map (fun e => .edge e.1 e.2)

theorem log_nodes (ns pre : List Nat) (es : List (Nat × Nat)) (h : (pre ++ ns).Nodup) :
    (ns.map GraphOp.node).foldl GraphOp.log (pre, es) = (pre ++ ns, es) := by
  induction ns generalizing pre with
  | nil => simp
  | cons a ns ih =>
    have ha : a ∉ pre := by
      intro hm
      exact (List.nodup_append.1 h).2.2 a hm a (by simp) rfl
    simp only [List.map_cons, List.foldl_cons, GraphOp.log, ha, if_false]
    rw [ih (pre ++ [a]) (by simpa using h)]
    simp

theorem log_edges (L : List (Nat × Nat)) (ns : List Nat) (es : List (Nat × Nat)) :
    ∃ es', (L.map (fun e => GraphOp.edge e.1 e.2)).foldl GraphOp.log (ns, es) = (ns, es ++ es') ∧ (∀ e ∈ es', e ∈ L) ∧
      ((∀ e ∈ L, e.1 ∈ ns ∧ e.2 ∈ ns) → ∀ e ∈ L, ∃ f ∈ es ++ es', SameEdge f e) ∧
      ((∀ e ∈ L, e.1 ∈ ns ∧ e.2 ∈ ns) → (es ++ L).Pairwise (fun e f => ¬ SameEdge e f) → es' = L) := by
  induction L generalizing es with
  | nil => exact ⟨[], by simp⟩
  | cons a L ih =>
    simp only [List.map_cons, List.foldl_cons]
    by_cases hc : a.1 ∈ ns ∧ a.2 ∈ ns ∧ ∀ e ∈ es, ¬ SameEdge e (a.1, a.2)
    · obtain ⟨es', h1, h2, h3, h4⟩ := ih (es ++ [a])
      refine ⟨a :: es', ?_, ?_, ?_, ?_⟩
      · have hlog : GraphOp.log (ns, es) (.edge a.1 a.2) = (ns, es ++ [a]) := by
          unfold GraphOp.log
          exact if_pos hc
        rw [hlog, h1]; simp
      · intro e he
        rcases List.mem_cons.1 he with rfl | he
        · simp
        · exact List.mem_cons_of_mem _ (h2 e he)
      · intro hn e he
        rcases List.mem_cons.1 he with rfl | he
        · exact ⟨e, by simp, .inl ⟨rfl, rfl⟩⟩
        · obtain ⟨f, hf, hs⟩ := h3 (fun e he => hn e (List.mem_cons_of_mem _ he)) e he
          exact ⟨f, by simpa using hf, hs⟩
      · intro hn hp
        rw [h4 (fun e he => hn e (List.mem_cons_of_mem _ he)) (by simpa using hp)]
    · obtain ⟨es', h1, h2, h3, h4⟩ := ih es
      have hlog : GraphOp.log (ns, es) (.edge a.1 a.2) = (ns, es) := by
        unfold GraphOp.log
        exact if_neg hc
      refine ⟨es', by rw [hlog]; exact h1, fun e he => List.mem_cons_of_mem _ (h2 e he), ?_, ?_⟩
      · intro hn e he
        rcases List.mem_cons.1 he with rfl | he
        · have := hn e (by simp)
          have : ∃ f ∈ es, SameEdge f e := by
            by_contra hno
            push Not at hno
            exact hc ⟨this.1, this.2, hno⟩
          obtain ⟨f, hf, hs⟩ := this
          exact ⟨f, List.mem_append_left _ hf, hs⟩
        · exact h3 (fun e he => hn e (List.mem_cons_of_mem _ he)) e he
      · intro hn hp
        exfalso
        have := hn a (by simp)
        refine hc ⟨this.1, this.2, fun e he hs => ?_⟩
        exact (List.pairwise_append.1 hp).2.2 e he a (by simp) hs

theorem DefaultGraph.noAdjLoop_run (ops : List GraphOp) : (ops.foldl DefaultGraph.perform .new).ReachableNoAdjLoop := by
  suffices H : ∀ g : DefaultGraph, g.ReachableNoAdjLoop → (ops.foldl DefaultGraph.perform g).ReachableNoAdjLoop from H _ .new
  induction ops with
  | nil => exact fun g h => h
  | cons o ops ih =>
    intro g h
    refine ih _ ?_
    cases o with
    | node v => exact .addNode _ _ h
    | edge a b => exact .addEdge _ _ _ h

/-- A graph equal to `g`, built by adding the edges in an order that steers along the path. -/
theorem DefaultGraph.steer {g : DefaultGraph} (hg : g.ReachableNoAdjLoop) {P : List Nat} (hP : P.Nodup) (hc : P.IsChain g.toI.Adj) :
    ∃ h : DefaultGraph, h.ReachableNoAdjLoop ∧ h.nodes = g.nodes ∧ g.eq h = .ok true ∧ Steers g.toI h.toI P := by
  have rg := hg.reachable
  have lg := lawful_of rg.wf rg.sym
  have hpe : ∀ e ∈ (pathEdges P).reverse, e.1 ∈ g.nodes ∧ e.2 ∈ g.nodes := by
    intro e he
    have := pathEdges_adj hc e (List.mem_reverse.1 he)
    exact ⟨rg.wf.adj_src this, rg.sym.adj_mem _ _ this⟩
  have hge : ∀ e ∈ g.edges, e.1 ∈ g.nodes ∧ e.2 ∈ g.nodes := by
    intro e he
    have := rg.sym.edges_adj _ _ he
    exact ⟨rg.wf.adj_src this, rg.sym.adj_mem _ _ this⟩
  obtain ⟨E1, a1, a2, a3, a4⟩ := log_edges (pathEdges P).reverse g.nodes []
  have hE1 : E1 = (pathEdges P).reverse := a4 hpe (by
    rw [List.nil_append, List.pairwise_reverse]
    refine (pathEdges_pairwise hP).imp (fun {e f} h hs => h ?_)
    rcases hs with ⟨h1, h2⟩ | ⟨h1, h2⟩
    · exact .inl ⟨h1.symm, h2.symm⟩
    · exact .inr ⟨h2.symm, h1.symm⟩)
  subst hE1
  obtain ⟨E2, b1, b2, b3, b4⟩ := log_edges g.edges g.nodes (pathEdges P).reverse
  let h := (callsFor g.nodes ((pathEdges P).reverse ++ g.edges)).foldl DefaultGraph.perform .new
  have hlog : Logged h (g.nodes, (pathEdges P).reverse ++ E2) := by
    have := logged_run (callsFor g.nodes ((pathEdges P).reverse ++ g.edges))
    rw [callsFor, List.foldl_append (f := GraphOp.log), log_nodes g.nodes [] [] (by simpa using rg.wf.nodup), List.map_append,
      List.foldl_append (f := GraphOp.log), List.nil_append, a1, List.nil_append, b1, ← List.map_append] at this
    exact this
  have hh : h.ReachableNoAdjLoop := noAdjLoop_run _
  have rh := hh.reachable
  obtain ⟨⟨hw, hs, ho, hx⟩, hn, he⟩ := hlog
  have hadj : ∀ u v, h.toI.Adj u v ↔ g.toI.Adj u v := by
    intro u v
    rw [hx.adj_iff_same hw hs, he]
    constructor
    · rintro ⟨e, he, hse⟩
      have ha : g.toI.Adj e.1 e.2 := by
        rcases List.mem_append.1 he with he | he
        · exact pathEdges_adj hc e (List.mem_reverse.1 he)
        · exact rg.sym.edges_adj _ _ (b2 e he)
      rcases hse with ⟨h1, h2⟩ | ⟨h1, h2⟩
      · simp only at h1 h2; subst h1 h2; exact ha
      · simp only at h1 h2; subst h1 h2; exact rg.sym.adj_symm _ _ ha
    · intro ha
      obtain ⟨e, he, hse⟩ := (hg.edgeExact.adj_iff_same rg.wf rg.sym u v).1 ha
      obtain ⟨f, hf, hs'⟩ := b3 hge e he
      refine ⟨f, hf, ?_⟩
      rcases hs' with ⟨h1, h2⟩ | ⟨h1, h2⟩ <;> rcases hse with ⟨h3, h4⟩ | ⟨h3, h4⟩ <;> simp only at h3 h4
      · exact .inl ⟨h1.trans h3, h2.trans h4⟩
      · exact .inr ⟨h1.trans h3, h2.trans h4⟩
      · exact .inr ⟨h1.trans h4, h2.trans h3⟩
      · exact .inl ⟨h1.trans h4, h2.trans h3⟩
  refine ⟨h, hh, hn, ?_, lawful_of hw hs, hadj, ?_⟩
  · obtain ⟨b, h1, h2⟩ := eq_iff rg.wf rg.sym hg.edgeExact hw hs hx
    rw [h1, h2.2 ⟨fun v => by rw [hn], fun u v => (hadj u v).symm⟩]
  · intro v w hvw
    obtain ⟨l, hl⟩ := incident_pathEdges hP hvw
    have hv : v ∈ h.nodes := hn ▸ rg.wf.adj_src (nextIn_adj hc hvw)
    have : h.toI.nbr v = incident v h.edges := by
      have h1 := ho v hv
      have h2 := hw.neighbors_eq hv
      rw [h1] at h2
      injection h2 with h2
      exact h2.symm
    rw [this, he, incident_append, hl]
    exact ⟨_, rfl⟩

end Gamma
