import Verif.Spec
import Verif.Proofs.Basic
/-
Invariant of `DefaultGraph` and the exact effect of its operations.
-/
namespace Gamma
namespace DefaultGraph

/-- The index map, the node list and the adjacency rows are in step. -/
structure WF (g : DefaultGraph) : Prop where
  len : g.adjacency.length = g.nodes.length
  nodup : g.nodes.Nodup
  idx : ∀ id i, g.indices.get id = some i ↔ g.nodes[i]? = some id

/-- The undirectedness part of the contract. -/
structure Sym (g : DefaultGraph) : Prop where
  adj_symm : ∀ u v, g.toI.Adj u v → g.toI.Adj v u
  adj_mem : ∀ u v, g.toI.Adj u v → v ∈ g.nodes
  neighbor_once : ∀ u v l, g.neighbors u = .ok l → u ≠ v → l.count v ≤ 1
  edges_adj : ∀ u v, (u, v) ∈ g.edges → g.toI.Adj u v
  adj_edges : ∀ u v, u ≠ v → g.toI.Adj u v → (u, v) ∈ g.edges ∨ (v, u) ∈ g.edges
  edges_once : ∀ u v, u ≠ v → g.edges.count (u, v) + g.edges.count (v, u) ≤ 1

variable {g : DefaultGraph}

theorem WF.get_none_iff (h : g.WF) (id : Nat) : g.indices.get id = none ↔ id ∉ g.nodes := by
  constructor
  · intro hn hm
    obtain ⟨i, hi⟩ := List.mem_iff_getElem?.1 hm
    rw [← h.idx] at hi
    simp [hn] at hi
  · intro hm
    cases hg : g.indices.get id with
    | none => rfl
    | some i => exact absurd (List.mem_of_getElem? ((h.idx _ _).1 hg)) hm

theorem WF.row (h : g.WF) {id : Nat} (hm : id ∈ g.nodes) :
    ∃ i row, g.indices.get id = some i ∧ g.nodes[i]? = some id ∧ g.adjacency[i]? = some row ∧
      g.neighbors id = .ok row := by
  obtain ⟨i, hi⟩ := List.mem_iff_getElem?.1 hm
  have hlt : i < g.adjacency.length := by
    rw [h.len]; exact (List.getElem?_eq_some_iff.1 hi).1
  have hidx := (h.idx _ _).2 hi
  refine ⟨i, g.adjacency[i], hidx, hi, List.getElem?_eq_getElem hlt, ?_⟩
  simp [neighbors, indexFor, hidx, vecIndex_eq_ok]

theorem WF.neighbors_err (h : g.WF) {id : Nat} (hm : id ∉ g.nodes) :
    g.neighbors id = .err (.missingNode id) := by
  simp [neighbors, indexFor, (h.get_none_iff id).2 hm]

theorem WF.hasNode_iff (h : g.WF) (id : Nat) : g.hasNode id = true ↔ id ∈ g.nodes := by
  have := h.get_none_iff id
  unfold hasNode HMap.containsKey
  cases hg : g.indices.get id with
  | none => simp [this.1 hg]
  | some i => simp; by_contra hc; rw [this.2 hc] at hg; simp at hg

theorem WF.neighbors_mem (h : g.WF) {id : Nat} {l : List Nat} (hl : g.neighbors id = .ok l) :
    id ∈ g.nodes := by
  by_contra hc
  rw [h.neighbors_err hc] at hl
  simp at hl

theorem WF.degree_eq (h : g.WF) (id : Nat) :
    g.degree id = (g.neighbors id >>= fun l => .ok l.length) := by
  unfold degree neighbors
  cases g.indexFor id <;> rfl

theorem WF.hasEdge_eq (h : g.WF) {u v : Nat} {l : List Nat} (hl : g.neighbors u = .ok l)
    (hv : v ∈ g.nodes) : g.hasEdge u v = .ok (l.contains v) := by
  obtain ⟨i, row, hi, -, hr, hn⟩ := h.row (h.neighbors_mem hl)
  rw [hl] at hn
  cases hn
  have hc := (h.hasNode_iff v).2 hv
  unfold hasNode at hc
  simp [hasEdge, indexFor, hi, hc, vecIndex_eq_ok.2 hr]

theorem WF.hasEdge_err_left (h : g.WF) {u v : Nat} (hu : u ∉ g.nodes) :
    g.hasEdge u v = .err (.missingNode u) := by
  simp [hasEdge, indexFor, (h.get_none_iff u).2 hu]

theorem WF.hasEdge_err_right (h : g.WF) {u v : Nat} (hu : u ∈ g.nodes) (hv : v ∉ g.nodes) :
    g.hasEdge u v = .err (.missingNode v) := by
  obtain ⟨i, row, hi, -, hr, hn⟩ := h.row hu
  have hc : g.indices.containsKey v = false := by
    have := (h.hasNode_iff v).not.2 hv
    simpa [hasNode] using this
  simp [hasEdge, indexFor, hi, hc]

theorem WF.adj_iff (h : g.WF) {u v : Nat} {l : List Nat} (hl : g.neighbors u = .ok l) :
    g.toI.Adj u v ↔ v ∈ l := by
  constructor
  · rintro ⟨l', hl', hv⟩
    have : g.neighbors u = .ok l' := hl'
    rw [hl] at this; cases this; exact hv
  · intro hv; exact ⟨l, hl, hv⟩

theorem WF.adj_src (h : g.WF) {u v : Nat} (ha : g.toI.Adj u v) : u ∈ g.nodes := by
  obtain ⟨l, hl, -⟩ := ha
  exact h.neighbors_mem hl

theorem lawful_of (h : g.WF) (s : g.Sym) : g.toI.Lawful where
  nodes_nodup := h.nodup
  isEmpty_eq := rfl
  order_eq := rfl
  size_eq := rfl
  hasNode_iff := h.hasNode_iff
  neighbors_ok := fun v hv => by
    obtain ⟨_, row, -, -, -, hn⟩ := h.row hv
    exact ⟨row, hn⟩
  neighbors_err := fun v hv => h.neighbors_err hv
  degree_eq := h.degree_eq
  adj_symm := s.adj_symm
  adj_mem := s.adj_mem
  neighbor_once := s.neighbor_once
  hasEdge_ok := fun u v hu hv => by
    obtain ⟨_, row, -, -, -, hn⟩ := h.row hu
    exact ⟨_, h.hasEdge_eq hn hv, by rw [h.adj_iff hn]; simp⟩
  hasEdge_err_left := fun u v hu => h.hasEdge_err_left hu
  hasEdge_err_right := fun u v hu hv => h.hasEdge_err_right hu hv
  edges_adj := s.edges_adj
  adj_edges := s.adj_edges
  edges_once := s.edges_once

theorem Sym.of_lawful (s : g.toI.Lawful) : g.Sym :=
  ⟨s.adj_symm, s.adj_mem, s.neighbor_once, s.edges_adj, s.adj_edges, s.edges_once⟩

/-! ### `new` -/

theorem wf_new : new.WF where
  len := rfl
  nodup := List.nodup_nil
  idx := by intro id i; simp [new]

theorem sym_new : new.Sym where
  adj_symm := by rintro u v ⟨l, hl, -⟩; simp [toI, neighbors, indexFor, new] at hl
  adj_mem := by rintro u v ⟨l, hl, -⟩; simp [toI, neighbors, indexFor, new] at hl
  neighbor_once := by intro u v l hl; simp [neighbors, indexFor, new] at hl
  edges_adj := by intro u v h; simp [new] at h
  adj_edges := by rintro u v - ⟨l, hl, -⟩; simp [toI, neighbors, indexFor, new] at hl
  edges_once := by intro u v _; simp [new]

/-! ### `add_node` -/

theorem WF.addNode_dup (h : g.WF) {id : Nat} (hm : id ∈ g.nodes) :
    g.addNode id = (g, .err (.duplicateNode id)) := by
  obtain ⟨i, row, hi, -⟩ := h.row hm
  simp [addNode, hi]

/-- What a successful `add_node` did. -/
structure AddedNode (g g' : DefaultGraph) (id : Nat) : Prop where
  wf : g'.WF
  nodes : g'.nodes = g.nodes ++ [id]
  edges : g'.edges = g.edges
  nb_new : g'.neighbors id = .ok []
  nb_old : ∀ x, x ≠ id → g'.neighbors x = g.neighbors x

theorem WF.addNode_new (h : g.WF) {id : Nat} (hm : id ∉ g.nodes) :
    (g.addNode id).2 = .ok () ∧ AddedNode g (g.addNode id).1 id := by
  have hn := (h.get_none_iff id).2 hm
  have e : g.addNode id = ({ g with
        indices := g.indices.insert id g.nodes.length
        nodes := g.nodes ++ [id]
        adjacency := g.adjacency ++ [[]] }, .ok ()) := by simp [addNode, hn]
  rw [e]
  refine ⟨rfl, ?_⟩
  have hwf : WF { g with
        indices := g.indices.insert id g.nodes.length
        nodes := g.nodes ++ [id]
        adjacency := g.adjacency ++ [[]] } := by
    refine ⟨by simp [h.len], ?_, ?_⟩
    · exact List.nodup_append.2 ⟨h.nodup, by simp, by
        intro a ha b hb; simp at hb; subst hb; rintro rfl; exact hm ha⟩
    · intro x i
      simp only [HMap.get_insert]
      by_cases hx : x = id
      · subst hx
        simp only [if_true, Option.some.injEq]
        constructor
        · rintro rfl; simp
        · intro hi
          rcases Nat.lt_trichotomy i g.nodes.length with hlt | heq | hgt
          · rw [List.getElem?_append_left hlt] at hi
            exact absurd (List.mem_of_getElem? hi) hm
          · exact heq.symm
          · rw [List.getElem?_eq_none (by simp; omega)] at hi; simp at hi
      · simp only [hx, if_false, h.idx]
        rcases Nat.lt_trichotomy i g.nodes.length with hlt | heq | hgt
        · rw [List.getElem?_append_left hlt]
        · subst heq; simp [Ne.symm hx]
        · have h1 : (g.nodes ++ [id])[i]? = none := List.getElem?_eq_none (by simp; omega)
          have h2 : g.nodes[i]? = none := List.getElem?_eq_none (by omega)
          rw [h1, h2]
  refine ⟨hwf, rfl, rfl, ?_, ?_⟩
  · simp [neighbors, indexFor, HMap.get_insert, vecIndex, ← h.len]
  · intro x hx
    simp only [neighbors, indexFor, HMap.get_insert, hx, if_false]
    cases hg : g.indices.get x with
    | none => rfl
    | some i =>
      simp only [Out.ok_bind, vecIndex]
      have : i < g.adjacency.length := by
        rw [h.len]; exact (List.getElem?_eq_some_iff.1 ((h.idx _ _).1 hg)).1
      rw [List.getElem?_append_left this]

theorem AddedNode.adj {g' : DefaultGraph} {id : Nat} (h : g.WF) (hm : id ∉ g.nodes)
    (a : AddedNode g g' id) (u v : Nat) : g'.toI.Adj u v ↔ g.toI.Adj u v := by
  by_cases hu : u = id
  · subst hu
    rw [a.wf.adj_iff a.nb_new]
    simp only [List.not_mem_nil, false_iff]
    intro hc; exact hm (h.adj_src hc)
  · unfold GraphI.Adj
    show (∃ l, g'.neighbors u = .ok l ∧ v ∈ l) ↔ (∃ l, g.neighbors u = .ok l ∧ v ∈ l)
    rw [a.nb_old u hu]

theorem AddedNode.sym {g' : DefaultGraph} {id : Nat} (h : g.WF) (s : g.Sym) (hm : id ∉ g.nodes)
    (a : AddedNode g g' id) : g'.Sym where
  adj_symm := fun u v => by rw [a.adj h hm, a.adj h hm]; exact s.adj_symm u v
  adj_mem := fun u v => by
    rw [a.adj h hm, a.nodes]; intro hx; exact List.mem_append_left _ (s.adj_mem u v hx)
  neighbor_once := fun u v l hl huv => by
    by_cases hu : u = id
    · subst hu; rw [a.nb_new] at hl; cases hl; simp
    · rw [a.nb_old u hu] at hl; exact s.neighbor_once u v l hl huv
  edges_adj := fun u v => by rw [a.edges, a.adj h hm]; exact s.edges_adj u v
  adj_edges := fun u v huv => by rw [a.edges, a.adj h hm]; exact s.adj_edges u v huv
  edges_once := fun u v => by rw [a.edges]; exact s.edges_once u v

/-! ### `add_edge` -/

theorem WF.addEdge_missing_left (h : g.WF) {s t : Nat} (hs : s ∉ g.nodes) :
    g.addEdge s t = (g, .err (.missingNode s)) := by
  simp [addEdge, (h.get_none_iff s).2 hs]

theorem WF.addEdge_missing_right (h : g.WF) {s t : Nat} (hs : s ∈ g.nodes) (ht : t ∉ g.nodes) :
    g.addEdge s t = (g, .err (.missingNode t)) := by
  obtain ⟨i, row, hi, -⟩ := h.row hs
  simp [addEdge, hi, (h.get_none_iff t).2 ht]

theorem WF.addEdge_dup (h : g.WF) {s t : Nat} (hs : s ∈ g.nodes) (ht : t ∈ g.nodes)
    (ha : g.toI.Adj s t) : g.addEdge s t = (g, .err (.duplicateEdge s t)) := by
  obtain ⟨i, row, hi, -, hr, hn⟩ := h.row hs
  obtain ⟨j, row', hj, -⟩ := h.row ht
  rw [h.adj_iff hn] at ha
  simp [addEdge, hi, hj, hr, ha]

/-- What a successful `add_edge` did. -/
structure AddedEdge (g g' : DefaultGraph) (s t : Nat) : Prop where
  wf : g'.WF
  nodes : g'.nodes = g.nodes
  edges : g'.edges = g.edges ++ [(s, t)]
  nb : ∀ x l, g.neighbors x = .ok l →
    g'.neighbors x = .ok (l ++ (if x = s then [t] else []) ++ (if x = t then [s] else []))

theorem WF.addEdge_new (h : g.WF) {s t : Nat} (hs : s ∈ g.nodes) (ht : t ∈ g.nodes)
    (ha : ¬ g.toI.Adj s t) :
    (g.addEdge s t).2 = .ok () ∧ AddedEdge g (g.addEdge s t).1 s t := by
  obtain ⟨i, row, hi, hni, hr, hn⟩ := h.row hs
  obtain ⟨j, row', hj, hnj, hr', hn'⟩ := h.row ht
  rw [h.adj_iff hn] at ha
  have hlen : j < (g.adjacency.modify i (· ++ [t])).length := by
    simp; exact (List.getElem?_eq_some_iff.1 hr').1
  have e : g.addEdge s t = ({ g with
      adjacency := (g.adjacency.modify i (· ++ [t])).modify j (· ++ [s])
      edges := g.edges ++ [(s, t)] }, .ok ()) := by
    unfold addEdge
    simp only [hi, hj, hr]
    have : row.contains t = false := by simpa using ha
    rw [this]
    simp only [Bool.false_eq_true, if_false]
    rw [List.getElem?_eq_getElem hlen]
  rw [e]
  refine ⟨rfl, ?_⟩
  have hwf : WF { g with
      adjacency := (g.adjacency.modify i (· ++ [t])).modify j (· ++ [s])
      edges := g.edges ++ [(s, t)] } := ⟨by simp [h.len], h.nodup, h.idx⟩
  refine ⟨hwf, rfl, rfl, ?_⟩
  intro x l hl
  obtain ⟨k, rowx, hk, hnk, hrx, hnx⟩ := h.row (h.neighbors_mem hl)
  rw [hl] at hnx; cases hnx
  have inj : ∀ {a b : Nat} {ia ib : Nat}, g.nodes[ia]? = some a → g.nodes[ib]? = some b →
      (ia = ib ↔ a = b) := by
    intro a b ia ib h1 h2
    constructor
    · rintro rfl; rw [h1] at h2; exact Option.some.inj h2
    · rintro rfl
      have := (h.idx a ia).2 h1
      rw [(h.idx a ib).2 h2] at this
      exact (Option.some.inj this).symm
  have e1 : (i = k) ↔ x = s := by rw [inj hni hnk]; exact eq_comm
  have e2 : (j = k) ↔ x = t := by rw [inj hnj hnk]; exact eq_comm
  simp only [neighbors, indexFor, hk, Out.ok_bind, vecIndex_eq_ok, List.getElem?_modify, hrx,
    Option.map_some, e1, e2]
  clear e1 e2
  split <;> split <;> simp

theorem AddedEdge.adj {g' : DefaultGraph} {s t : Nat} (h : g.WF) (hs : s ∈ g.nodes)
    (ht : t ∈ g.nodes) (a : AddedEdge g g' s t) (u v : Nat) :
    g'.toI.Adj u v ↔ g.toI.Adj u v ∨ (u = s ∧ v = t) ∨ (u = t ∧ v = s) := by
  by_cases hu : u ∈ g.nodes
  · obtain ⟨_, row, -, -, -, hn⟩ := h.row hu
    rw [h.adj_iff hn, a.wf.adj_iff (a.nb u row hn)]
    by_cases h1 : u = s <;> by_cases h2 : u = t <;> simp [h1, h2]
  · constructor
    · intro hx; exact absurd (by have := a.wf.adj_src hx; rwa [a.nodes] at this) hu
    · rintro (hx | ⟨rfl, -⟩ | ⟨rfl, -⟩)
      · exact absurd (h.adj_src hx) hu
      · exact absurd hs hu
      · exact absurd ht hu

theorem AddedEdge.sym {g' : DefaultGraph} {s t : Nat} (h : g.WF) (hsym : g.Sym) (hs : s ∈ g.nodes)
    (ht : t ∈ g.nodes) (ha : ¬ g.toI.Adj s t) (a : AddedEdge g g' s t) : g'.Sym where
  adj_symm := fun u v => by
    rw [a.adj h hs ht, a.adj h hs ht]
    rintro (hx | ⟨rfl, rfl⟩ | ⟨rfl, rfl⟩)
    · exact .inl (hsym.adj_symm u v hx)
    · exact .inr (.inr ⟨rfl, rfl⟩)
    · exact .inr (.inl ⟨rfl, rfl⟩)
  adj_mem := fun u v => by
    rw [a.adj h hs ht, a.nodes]
    rintro (hx | ⟨-, rfl⟩ | ⟨-, rfl⟩)
    · exact hsym.adj_mem u v hx
    · exact ht
    · exact hs
  neighbor_once := fun u v l hl huv => by
    have hu : u ∈ g.nodes := by have := a.wf.neighbors_mem hl; rwa [a.nodes] at this
    obtain ⟨_, row, -, -, -, hn⟩ := h.row hu
    rw [a.nb u row hn] at hl
    cases hl
    have h1 := hsym.neighbor_once u v row hn huv
    have ha' : ¬ g.toI.Adj t s := fun hc => ha (hsym.adj_symm _ _ hc)
    simp only [List.count_append]
    have z1 : u = s → v = t → row.count v = 0 := by
      rintro rfl rfl; rw [List.count_eq_zero]; rw [h.adj_iff hn] at ha; exact ha
    have z2 : u = t → v = s → row.count v = 0 := by
      rintro rfl rfl; rw [List.count_eq_zero]; rw [h.adj_iff hn] at ha'; exact ha'
    by_cases e1 : u = s
    · by_cases e2 : u = t
      · simp only [e1, if_true]
        have : v ≠ s := fun hc => huv (e1.trans hc.symm)
        have : v ≠ t := fun hc => huv (e2.trans hc.symm)
        subst e1; subst e2
        simp [List.count_cons, Ne.symm this]; exact h1
      · by_cases e3 : v = t
        · have := z1 e1 e3
          subst e1; subst e3; simp [e2, this]
        · simp [e1, e2, List.count_cons, Ne.symm e3]; subst e1; simp [e2]; exact h1
    · by_cases e2 : u = t
      · by_cases e3 : v = s
        · subst e2; subst e3; simp [e1, z2 rfl rfl]
        · subst e2; simp [e1, List.count_cons, Ne.symm e3]; exact h1
      · simp [e1, e2]; exact h1
  edges_adj := fun u v => by
    rw [a.edges, a.adj h hs ht, List.mem_append]
    rintro (hx | hx)
    · exact .inl (hsym.edges_adj u v hx)
    · simp at hx; exact .inr (.inl hx)
  adj_edges := fun u v huv => by
    rw [a.edges, a.adj h hs ht, List.mem_append, List.mem_append]
    rintro (hx | ⟨rfl, rfl⟩ | ⟨rfl, rfl⟩)
    · rcases hsym.adj_edges u v huv hx with h1 | h1
      · exact .inl (.inl h1)
      · exact .inr (.inl h1)
    · exact .inl (.inr (by simp))
    · exact .inr (.inr (by simp))
  edges_once := fun u v huv => by
    rw [a.edges, List.count_append, List.count_append]
    have h1 := hsym.edges_once u v huv
    have ha' : ¬ g.toI.Adj t s := fun hc => ha (hsym.adj_symm _ _ hc)
    have z1 : g.edges.count (s, t) = 0 := by
      rw [List.count_eq_zero]; exact fun hc => ha (hsym.edges_adj _ _ hc)
    have z2 : g.edges.count (t, s) = 0 := by
      rw [List.count_eq_zero]; exact fun hc => ha' (hsym.edges_adj _ _ hc)
    by_cases e1 : (s, t) = (u, v)
    · simp only [Prod.mk.injEq] at e1
      obtain ⟨rfl, rfl⟩ := e1
      simp [List.count_cons, z1, z2]
      exact fun h => absurd h huv
    · by_cases e2 : (s, t) = (v, u)
      · simp only [Prod.mk.injEq] at e2
        obtain ⟨rfl, rfl⟩ := e2
        simp [List.count_cons, z1, z2]
        exact fun h => absurd h.symm huv
      · simp only [List.count_cons, List.count_nil, Nat.zero_add]
        have b1 : ((s, t) == (u, v)) = false := by simpa using e1
        have b2 : ((s, t) == (v, u)) = false := by simpa using e2
        simp [b1, b2]; omega

end DefaultGraph
end Gamma
