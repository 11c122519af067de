import Verif.Proofs.Convert
import Mathlib.Data.List.Nodup
/-
Every reachable `DefaultGraph` satisfies the contract of the `Graph` trait.
-/
namespace Gamma
namespace DefaultGraph

/-- Facts about a graph converted from a valid adjacency list. -/
structure FromAdj (adj : List (List Nat)) (g : DefaultGraph) : Prop where
  adjacency : g.adjacency = adj
  nodes : g.nodes = List.range adj.length
  edges : g.edges = (adj.mapIdx rowEdges).flatten
  idx : ∀ x i, g.indices.get x = some i ↔ x < adj.length ∧ x = i
  valid : ValidAdjacency adj

theorem fromAdj_of_ok {adj : List (List Nat)} {g : DefaultGraph}
    (h : tryFromAdjacency adj = .ok g) : FromAdj adj g := by
  rcases tryFromAdjacency_cases adj with ⟨hv, g', hg', h1, h2, h3, h4⟩ | ⟨e, -, he⟩
  · rw [h] at hg'; cases hg'
    exact ⟨h1, h2, h3, h4, (validAdjacency_iff adj).2 hv⟩
  · rw [h] at he; cases he

theorem mem_rowEdges {i : Nat} {row : List Nat} {u v : Nat} :
    (u, v) ∈ rowEdges i row ↔ u = i ∧ i < v ∧ v ∈ row := by
  unfold rowEdges
  simp only [List.mem_map, List.mem_filter, decide_eq_true_eq, Prod.mk.injEq]
  constructor
  · rintro ⟨t, ⟨ht, hlt⟩, rfl, rfl⟩; exact ⟨rfl, hlt, ht⟩
  · rintro ⟨rfl, hlt, hm⟩; exact ⟨v, ⟨hm, hlt⟩, rfl, rfl⟩

variable {adj : List (List Nat)} {g : DefaultGraph}

theorem FromAdj.wf (h : FromAdj adj g) : g.WF where
  len := by rw [h.adjacency, h.nodes]; simp
  nodup := by rw [h.nodes]; exact List.nodup_range
  idx := by
    intro x i
    rw [h.idx, h.nodes]
    by_cases hi : i < adj.length
    · simp only [List.getElem?_range hi, Option.some.injEq]; omega
    · rw [List.getElem?_eq_none (by simpa using hi)]; simp; omega

theorem FromAdj.neighbors (h : FromAdj adj g) {i : Nat} {row : List Nat} (hr : adj[i]? = some row) :
    g.neighbors i = .ok row := by
  have hlt : i < adj.length := (List.getElem?_eq_some_iff.1 hr).1
  have : g.indices.get i = some i := (h.idx i i).2 ⟨hlt, rfl⟩
  simp [DefaultGraph.neighbors, indexFor, this, vecIndex_eq_ok, h.adjacency, hr]

theorem FromAdj.adj_iff (h : FromAdj adj g) (u v : Nat) :
    g.toI.Adj u v ↔ ∃ row, adj[u]? = some row ∧ v ∈ row := by
  constructor
  · intro ha
    have hu := h.wf.adj_src ha
    rw [h.nodes, List.mem_range] at hu
    have hr : adj[u]? = some adj[u] := List.getElem?_eq_getElem hu
    exact ⟨_, hr, (h.wf.adj_iff (h.neighbors hr)).1 ha⟩
  · rintro ⟨row, hr, hv⟩; exact (h.wf.adj_iff (h.neighbors hr)).2 hv

theorem mem_adjEdges {u v : Nat} :
    (u, v) ∈ (adj.mapIdx rowEdges).flatten ↔ u < v ∧ ∃ row, adj[u]? = some row ∧ v ∈ row := by
  rw [List.mem_flatten]
  constructor
  · rintro ⟨l, hl, hm⟩
    rw [List.mem_mapIdx] at hl
    obtain ⟨i, hi, rfl⟩ := hl
    rw [mem_rowEdges] at hm
    obtain ⟨rfl, hlt, hv⟩ := hm
    exact ⟨hlt, _, List.getElem?_eq_getElem hi, hv⟩
  · rintro ⟨hlt, row, hr, hv⟩
    obtain ⟨hi, hr⟩ := List.getElem?_eq_some_iff.1 hr
    refine ⟨rowEdges u row, ?_, mem_rowEdges.2 ⟨rfl, hlt, hv⟩⟩
    rw [List.mem_mapIdx]
    exact ⟨u, hi, by rw [hr]⟩

theorem nodup_adjEdges (hv : ∀ row ∈ adj, row.Nodup) (k : Nat) :
    (adj.mapIdx (fun i row => rowEdges (k + i) row)).flatten.Nodup := by
  induction adj generalizing k with
  | nil => simp
  | cons row adj ih =>
    rw [List.mapIdx_cons, List.flatten_cons, List.nodup_append]
    have h1 : ∀ i, k + (i + 1) = (k + 1) + i := by intro i; omega
    refine ⟨?_, ?_, ?_⟩
    · unfold rowEdges
      refine List.Nodup.map ?_ ((hv row (by simp)).filter _)
      intro a b hab; simpa using hab
    · have h2 : (fun i row => rowEdges (k + (i + 1)) row) = (fun i row => rowEdges (k + 1 + i) row) := by
        funext i row; rw [h1]
      rw [h2]; exact ih (fun r hr => hv r (by simp [hr])) (k + 1)
    · rintro ⟨a, b⟩ ha ⟨c, d⟩ hc heq
      rw [mem_rowEdges] at ha
      rw [List.mem_flatten] at hc
      obtain ⟨l, hl, hm⟩ := hc
      rw [List.mem_mapIdx] at hl
      obtain ⟨i, hi, rfl⟩ := hl
      rw [mem_rowEdges] at hm
      have := Prod.mk.inj heq
      omega

theorem FromAdj.edges_nodup (h : FromAdj adj g) : g.edges.Nodup := by
  rw [h.edges]
  have := nodup_adjEdges (adj := adj) (fun row hr => by
    obtain ⟨i, hi⟩ := List.mem_iff_getElem?.1 hr
    exact h.valid.noRepeat i row hi) 0
  simpa using this

theorem FromAdj.sym (h : FromAdj adj g) : g.Sym where
  adj_symm := fun u v => by
    rw [h.adj_iff, h.adj_iff]
    rintro ⟨row, hr, hv⟩
    have hlt := h.valid.inRange u row hr v hv
    have hg : adj[v]? = some adj[v] := List.getElem?_eq_getElem hlt
    exact ⟨_, hg, h.valid.symmetric u row hr v hv _ hg⟩
  adj_mem := fun u v => by
    rw [h.adj_iff, h.nodes, List.mem_range]
    rintro ⟨row, hr, hv⟩
    exact h.valid.inRange u row hr v hv
  neighbor_once := fun u v l hl _ => by
    have hu := h.wf.neighbors_mem hl
    rw [h.nodes, List.mem_range] at hu
    have hr : adj[u]? = some adj[u] := List.getElem?_eq_getElem hu
    rw [h.neighbors hr] at hl; cases hl
    exact List.nodup_iff_count_le_one.1 (h.valid.noRepeat u _ hr) v
  edges_adj := fun u v => by
    rw [h.edges, mem_adjEdges, h.adj_iff]; exact fun hx => hx.2
  adj_edges := fun u v huv ha => by
    have hs : g.toI.Adj v u := by
      rw [h.adj_iff] at ha ⊢
      obtain ⟨row, hr, hv⟩ := ha
      have hlt := h.valid.inRange u row hr v hv
      have hg : adj[v]? = some adj[v] := List.getElem?_eq_getElem hlt
      exact ⟨_, hg, h.valid.symmetric u row hr v hv _ hg⟩
    rw [h.edges, mem_adjEdges, mem_adjEdges]
    rw [h.adj_iff] at ha hs
    rcases Nat.lt_or_gt_of_ne huv with hlt | hlt
    · exact .inl ⟨hlt, ha⟩
    · exact .inr ⟨hlt, hs⟩
  edges_once := fun u v huv => by
    have hn := h.edges_nodup
    have c1 := List.nodup_iff_count_le_one.1 hn (u, v)
    have c2 := List.nodup_iff_count_le_one.1 hn (v, u)
    rcases Nat.lt_or_gt_of_ne huv with hlt | hlt
    · have : g.edges.count (v, u) = 0 := by
        rw [List.count_eq_zero, h.edges, mem_adjEdges]; omega
      omega
    · have : g.edges.count (u, v) = 0 := by
        rw [List.count_eq_zero, h.edges, mem_adjEdges]; omega
      omega

/-! ### The `?` forms used inside the conversions -/

theorem addNodeQ_new (h : g.WF) {id : Nat} (hm : id ∉ g.nodes) :
    ∃ g', g.addNodeQ id = .ok g' ∧ g' = (g.addNode id).1 ∧ AddedNode g g' id := by
  obtain ⟨h1, h2⟩ := h.addNode_new hm
  exact ⟨_, by simp [addNodeQ, h1], rfl, h2⟩

theorem addNodeQ_dup (h : g.WF) {id : Nat} (hm : id ∈ g.nodes) :
    g.addNodeQ id = .err (.duplicateNode id) := by
  simp [addNodeQ, h.addNode_dup hm]

theorem addEdgeQ_new (h : g.WF) {s t : Nat} (hs : s ∈ g.nodes) (ht : t ∈ g.nodes)
    (ha : ¬ g.toI.Adj s t) :
    ∃ g', g.addEdgeQ s t = .ok g' ∧ g' = (g.addEdge s t).1 ∧ AddedEdge g g' s t := by
  obtain ⟨h1, h2⟩ := h.addEdge_new hs ht ha
  exact ⟨_, by simp [addEdgeQ, h1], rfl, h2⟩

theorem addEdgeQ_dup (h : g.WF) {s t : Nat} (hs : s ∈ g.nodes) (ht : t ∈ g.nodes)
    (ha : g.toI.Adj s t) : g.addEdgeQ s t = .err (.duplicateEdge s t) := by
  simp [addEdgeQ, h.addEdge_dup hs ht ha]

/-! ### Invariants that survive every operation -/

/-- An invariant of `new` preserved by successful `add_node` and `add_edge`. -/
structure OpInv (P : DefaultGraph → Prop) : Prop where
  node : ∀ g g' id, g.WF → g.Sym → P g → id ∉ g.nodes → AddedNode g g' id → P g'
  edge : ∀ g g' s t, g.WF → g.Sym → P g → s ∈ g.nodes → t ∈ g.nodes → ¬ g.toI.Adj s t →
    AddedEdge g g' s t → P g'

/-- WF, Sym and P together. -/
def Good (P : DefaultGraph → Prop) (g : DefaultGraph) : Prop := g.WF ∧ g.Sym ∧ P g

variable {P : DefaultGraph → Prop}

theorem Good.addNode (hP : OpInv P) (h : Good P g) (id : Nat) : Good P (g.addNode id).1 := by
  obtain ⟨hw, hs, hp⟩ := h
  by_cases hm : id ∈ g.nodes
  · rw [hw.addNode_dup hm]; exact ⟨hw, hs, hp⟩
  · obtain ⟨-, a⟩ := hw.addNode_new hm
    exact ⟨a.wf, a.sym hw hs hm, hP.node _ _ _ hw hs hp hm a⟩

theorem Good.addEdge (hP : OpInv P) (h : Good P g) (s t : Nat) : Good P (g.addEdge s t).1 := by
  obtain ⟨hw, hsy, hp⟩ := h
  by_cases hs : s ∈ g.nodes
  · by_cases ht : t ∈ g.nodes
    · by_cases ha : g.toI.Adj s t
      · rw [hw.addEdge_dup hs ht ha]; exact ⟨hw, hsy, hp⟩
      · obtain ⟨-, a⟩ := hw.addEdge_new hs ht ha
        exact ⟨a.wf, a.sym hw hsy hs ht ha, hP.edge _ _ _ _ hw hsy hp hs ht ha a⟩
    · rw [hw.addEdge_missing_right hs ht]; exact ⟨hw, hsy, hp⟩
  · rw [hw.addEdge_missing_left hs]; exact ⟨hw, hsy, hp⟩

theorem Good.addNodeQ (hP : OpInv P) (h : Good P g) {id : Nat} {g' : DefaultGraph}
    (e : g.addNodeQ id = .ok g') : Good P g' := by
  unfold DefaultGraph.addNodeQ at e
  rw [Out.bind_eq_ok] at e
  obtain ⟨_, -, e⟩ := e
  cases e
  exact h.addNode hP id

theorem Good.addEdgeQ (hP : OpInv P) (h : Good P g) {s t : Nat} {g' : DefaultGraph}
    (e : g.addEdgeQ s t = .ok g') : Good P g' := by
  unfold DefaultGraph.addEdgeQ at e
  rw [Out.bind_eq_ok] at e
  obtain ⟨_, -, e⟩ := e
  cases e
  exact h.addEdge hP s t

theorem Good.tryFromEdgesStep (hP : OpInv P) (h : Good P g) {e : Nat × Nat} {g' : DefaultGraph}
    (he : DefaultGraph.tryFromEdgesStep g e = .ok g') : Good P g' := by
  unfold DefaultGraph.tryFromEdgesStep at he
  rw [Out.bind_eq_ok] at he
  obtain ⟨g1, h1, he⟩ := he
  rw [Out.bind_eq_ok] at he
  obtain ⟨g2, h2, he⟩ := he
  have i1 : Good P g1 := by
    split at h1
    · exact h.addNodeQ hP h1
    · cases h1; exact h
  have i2 : Good P g2 := by
    split at h2
    · exact i1.addNodeQ hP h2
    · cases h2; exact i1
  exact i2.addEdgeQ hP he

theorem foldlM_inv {α β : Type} {f : β → α → Out β} {I : β → Prop}
    (hf : ∀ b a b', I b → f b a = .ok b' → I b') (l : List α) {b b' : β} (hb : I b)
    (h : l.foldlM f b = .ok b') : I b' := by
  induction l generalizing b with
  | nil => simp at h; subst h; exact hb
  | cons a l ih =>
    rw [List.foldlM_cons, Out.bind_eq_ok] at h
    obtain ⟨b1, h1, h2⟩ := h
    exact ih (hf _ _ _ hb h1) h2

theorem Good.new (h0 : P DefaultGraph.new) : Good P DefaultGraph.new := ⟨wf_new, sym_new, h0⟩

theorem Good.tryFromEdges (hP : OpInv P) (h0 : P DefaultGraph.new) {es : List (Nat × Nat)}
    (he : DefaultGraph.tryFromEdges es = .ok g) : Good P g :=
  foldlM_inv (I := Good P) (fun _ _ _ hb h => hb.tryFromEdgesStep hP h) es (Good.new h0) he

theorem opInv_true : OpInv (fun _ => True) := ⟨fun _ _ _ _ _ _ _ _ => trivial, fun _ _ _ _ _ _ _ _ _ _ _ => trivial⟩

theorem Reachable.good (h : Reachable g) : Good (fun _ => True) g := by
  induction h with
  | new => exact Good.new trivial
  | fromAdjacency adj g hg =>
    have := fromAdj_of_ok hg
    exact ⟨this.wf, this.sym, trivial⟩
  | fromEdges es g hg => exact Good.tryFromEdges opInv_true trivial hg
  | addNode g id _ ih => exact ih.addNode opInv_true id
  | addEdge g s t _ ih => exact ih.addEdge opInv_true s t

theorem Reachable.wf (h : Reachable g) : g.WF := h.good.1
theorem Reachable.sym (h : Reachable g) : g.Sym := h.good.2.1
theorem Reachable.lawful (h : Reachable g) : g.toI.Lawful := lawful_of h.wf h.sym

theorem ReachableNoAdjLoop.reachable (h : ReachableNoAdjLoop g) : Reachable g := by
  induction h with
  | new => exact .new
  | fromAdjacency adj g _ hg => exact .fromAdjacency adj g hg
  | fromEdges es g hg => exact .fromEdges es g hg
  | addNode g id _ ih => exact .addNode g id ih
  | addEdge g s t _ ih => exact .addEdge g s t ih

theorem ReachableNoAdjLoop.good (hP : OpInv P) (h0 : P DefaultGraph.new)
    (hadj : ∀ adj g, (∀ (i : Nat) (row : List Nat), adj[i]? = some row → i ∉ row) → FromAdj adj g → P g)
    (h : ReachableNoAdjLoop g) : Good P g := by
  induction h with
  | new => exact Good.new h0
  | fromAdjacency adj g hl hg =>
    have := fromAdj_of_ok hg
    exact ⟨this.wf, this.sym, hadj adj g hl this⟩
  | fromEdges es g hg => exact Good.tryFromEdges hP h0 hg
  | addNode g id _ ih => exact ih.addNode hP id
  | addEdge g s t _ ih => exact ih.addEdge hP s t

/-- The edge list is exactly the adjacency relation, self-loops included, without repetition. -/
structure EdgeExact (g : DefaultGraph) : Prop where
  adj_edges : ∀ u v, g.toI.Adj u v → (u, v) ∈ g.edges ∨ (v, u) ∈ g.edges
  nodup : g.edges.Nodup

theorem opInv_edgeExact : OpInv EdgeExact where
  node := fun g g' id hw hs hp hm a => by
    refine ⟨?_, by rw [a.edges]; exact hp.nodup⟩
    intro u v
    rw [a.adj hw hm, a.edges]; exact hp.adj_edges u v
  edge := fun g g' s t hw hs hp hms hmt hna a => by
    refine ⟨?_, ?_⟩
    · intro u v
      rw [a.adj hw hms hmt, a.edges, List.mem_append, List.mem_append]
      rintro (hx | ⟨rfl, rfl⟩ | ⟨rfl, rfl⟩)
      · rcases hp.adj_edges u v hx with h1 | h1
        · exact .inl (.inl h1)
        · exact .inr (.inl h1)
      · exact .inl (.inr (by simp))
      · exact .inr (.inr (by simp))
    · rw [a.edges]
      refine List.nodup_append.2 ⟨hp.nodup, by simp, ?_⟩
      intro x hx y hy hxy
      simp at hy; subst hy; subst hxy
      exact hna (hs.edges_adj _ _ hx)

theorem ReachableNoAdjLoop.edgeExact (h : ReachableNoAdjLoop g) : EdgeExact g := by
  refine (h.good opInv_edgeExact ⟨?_, by simp [DefaultGraph.new]⟩ ?_).2.2
  · rintro u v ⟨l, hl, -⟩; simp [toI, neighbors, indexFor, DefaultGraph.new] at hl
  · intro adj g hl hg
    refine ⟨?_, hg.edges_nodup⟩
    intro u v ha
    by_cases huv : u = v
    · subst huv
      rw [hg.adj_iff] at ha
      obtain ⟨row, hr, hv⟩ := ha
      exact absurd hv (hl u row hr)
    · exact hg.sym.adj_edges u v huv ha

end DefaultGraph
end Gamma
