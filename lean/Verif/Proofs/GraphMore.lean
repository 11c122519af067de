import Verif.Proofs.Reachable
import Verif.Proofs.Lawful
import Mathlib.Algebra.BigOperators.Group.Finset.Basic
import Mathlib.Algebra.BigOperators.Group.List.Lemmas
import Mathlib.Algebra.Order.BigOperators.Group.List
/-
Handshake, insertion order, edge-list conversion, equality, round trips.
-/
namespace Gamma

namespace DefaultGraph
variable {g : DefaultGraph}

theorem WF.neighbors_eq (h : g.WF) {v : Nat} (hv : v ∈ g.nodes) : g.neighbors v = .ok (g.toI.nbr v) := by
  obtain ⟨_, row, -, -, -, hn⟩ := h.row hv
  have : g.toI.nbr v = row := GraphI.nbr_of_ok hn
  rw [this, hn]

/-! ### Handshake -/

/-- Sum of degrees = 2 * size + number of nodes listed exactly once as their own neighbor. -/
def Handshake (g : DefaultGraph) : Prop :=
  (g.nodes.map (fun v => (g.toI.nbr v).length)).sum =
    2 * g.edges.length + g.nodes.countP (fun v => (g.toI.nbr v).count v == 1)

theorem AddedNode.nbr_old {g' : DefaultGraph} {id : Nat} (a : AddedNode g g' id) {x : Nat} (hx : x ≠ id) :
    g'.toI.nbr x = g.toI.nbr x := by
  unfold GraphI.nbr
  show (match g'.neighbors x with | .ok l => l | _ => []) = (match g.neighbors x with | .ok l => l | _ => [])
  rw [a.nb_old x hx]

theorem AddedNode.nbr_new {g' : DefaultGraph} {id : Nat} (a : AddedNode g g' id) :
    g'.toI.nbr id = [] := GraphI.nbr_of_ok a.nb_new

theorem AddedEdge.nbr {g' : DefaultGraph} {s t : Nat} (h : g.WF) (a : AddedEdge g g' s t) {x : Nat}
    (hx : x ∈ g.nodes) : g'.toI.nbr x =
      g.toI.nbr x ++ (if x = s then [t] else []) ++ (if x = t then [s] else []) :=
  GraphI.nbr_of_ok (a.nb x _ (h.neighbors_eq hx))

theorem sum_map_add_ite (l : List Nat) (f : Nat → Nat) (s : Nat) (hn : l.Nodup) (hs : s ∈ l) :
    (l.map (fun x => f x + if x = s then 1 else 0)).sum = (l.map f).sum + 1 := by
  induction l with
  | nil => simp at hs
  | cons a l ih =>
    simp only [List.map_cons, List.sum_cons]
    rw [List.nodup_cons] at hn
    by_cases ha : a = s
    · subst ha
      have : l.map (fun x => f x + if x = a then 1 else 0) = l.map f := by
        apply List.map_congr_left
        intro x hx
        have : x ≠ a := by rintro rfl; exact hn.1 hx
        simp [this]
      rw [this]; simp; omega
    · have hs' : s ∈ l := by simpa [Ne.symm ha] using hs
      rw [ih hn.2 hs']; simp [ha]; omega

theorem opInv_handshake : OpInv Handshake where
  node := fun g g' id hw _ hp hm a => by
    unfold Handshake at hp ⊢
    rw [a.nodes, a.edges]
    simp only [List.map_append, List.map_cons, List.map_nil, List.sum_append, List.countP_append,
      List.countP_cons, List.countP_nil, a.nbr_new]
    have h1 : g.nodes.map (fun v => (g'.toI.nbr v).length) = g.nodes.map (fun v => (g.toI.nbr v).length) := by
      apply List.map_congr_left
      intro x hx
      rw [a.nbr_old]; rintro rfl; exact hm hx
    have h2 : g.nodes.countP (fun v => (g'.toI.nbr v).count v == 1) =
        g.nodes.countP (fun v => (g.toI.nbr v).count v == 1) := by
      apply List.countP_congr
      intro x hx
      rw [a.nbr_old]; rintro rfl; exact hm hx
    rw [h1, h2, hp]; simp
  edge := fun g g' s t hw hsy hp hs ht hna a => by
    unfold Handshake at hp ⊢
    rw [a.nodes, a.edges]
    have h1 : g.nodes.map (fun v => (g'.toI.nbr v).length) =
        g.nodes.map (fun x => ((g.toI.nbr x).length + if x = s then 1 else 0) + if x = t then 1 else 0) := by
      apply List.map_congr_left
      intro x hx
      rw [a.nbr hw hx]
      simp only [List.length_append]
      split <;> split <;> simp
    have h2 : g.nodes.countP (fun v => (g'.toI.nbr v).count v == 1) =
        g.nodes.countP (fun v => (g.toI.nbr v).count v == 1) := by
      apply List.countP_congr
      intro x hx
      rw [a.nbr hw hx]
      by_cases e1 : x = s
      · by_cases e2 : x = t
        · subst e1; subst e2
          have : (g.toI.nbr x).count x = 0 := by
            rw [List.count_eq_zero, GraphI.mem_nbr]; exact hna
          simp [this]
        · subst e1
          simp [e2, List.count_cons, Ne.symm e2]
      · by_cases e2 : x = t
        · subst e2; simp [e1, List.count_cons, Ne.symm e1]
        · simp [e1, e2]
    rw [h1, h2, sum_map_add_ite _ _ t hw.nodup ht, sum_map_add_ite _ _ s hw.nodup hs, hp]
    simp; omega

theorem length_filter_eq_sum {n : Nat} {row : List Nat} (hn : row.Nodup) (hr : ∀ t ∈ row, t < n)
    (p : Nat → Bool) : (row.filter p).length =
      ∑ j ∈ Finset.range n, if j ∈ row ∧ p j = true then 1 else 0 := by
  rw [← Finset.card_filter]
  have : (row.filter p).length = (row.filter p).toFinset.card :=
    (List.toFinset_card_of_nodup (hn.filter _)).symm
  rw [this]
  congr 1
  ext j
  simp only [List.mem_toFinset, List.mem_filter, Finset.mem_filter, Finset.mem_range]
  constructor
  · rintro ⟨h1, h2⟩; exact ⟨hr j h1, h1, h2⟩
  · rintro ⟨-, h1, h2⟩; exact ⟨h1, h2⟩

theorem sum_range_list (n : Nat) (f : Nat → Nat) :
    ((List.range n).map f).sum = ∑ i ∈ Finset.range n, f i := by
  induction n with
  | zero => simp
  | succ n ih => rw [List.range_succ, Finset.sum_range_succ]; simp [ih]

theorem length_flatten_mapIdx (l : List (List Nat)) (f : Nat → List Nat → List (Nat × Nat)) :
    (l.mapIdx f).flatten.length = ((List.range l.length).map (fun i => (f i (l[i]?.getD [])).length)).sum := by
  rw [List.length_flatten]
  congr 1
  apply List.ext_getElem
  · simp
  · intro i h1 h2
    simp at h1
    simp [h1]

theorem FromAdj.nbr {adj : List (List Nat)} (h : FromAdj adj g) (i : Nat) :
    g.toI.nbr i = adj[i]?.getD [] := by
  by_cases hi : i < adj.length
  · have hr : adj[i]? = some adj[i] := List.getElem?_eq_getElem hi
    rw [hr]; exact GraphI.nbr_of_ok (h.neighbors hr)
  · have : i ∉ g.nodes := by rw [h.nodes]; simpa using hi
    have e := h.wf.neighbors_err this
    rw [List.getElem?_eq_none (by omega)]
    unfold GraphI.nbr
    show (match g.neighbors i with | .ok l => l | _ => []) = _
    rw [e]; rfl

theorem FromAdj.handshake {adj : List (List Nat)} (h : FromAdj adj g) : Handshake g := by
  unfold Handshake
  rw [h.nodes, h.edges, length_flatten_mapIdx]
  simp only [h.nbr]
  set n := adj.length with hn
  set row : Nat → List Nat := fun i => adj[i]?.getD [] with hrow
  have hrow' : ∀ i < n, adj[i]? = some (row i) := by
    intro i hi
    simp only [hrow, List.getElem?_eq_getElem (hn ▸ hi : i < adj.length), Option.getD_some]
  have hnd : ∀ i, (row i).Nodup := by
    intro i
    by_cases hi : i < n
    · exact h.valid.noRepeat i _ (hrow' i hi)
    · simp [hrow, List.getElem?_eq_none (by omega : adj.length ≤ i)]
  have hrg : ∀ i, ∀ t ∈ row i, t < n := by
    intro i
    by_cases hi : i < n
    · exact h.valid.inRange i _ (hrow' i hi)
    · simp [hrow, List.getElem?_eq_none (by omega : adj.length ≤ i)]
  have hsym : ∀ i j, j ∈ row i → i ∈ row j := by
    intro i j hj
    by_cases hi : i < n
    · exact h.valid.symmetric i _ (hrow' i hi) j hj _ (hrow' j (hrg i j hj))
    · simp [hrow, List.getElem?_eq_none (by omega : adj.length ≤ i)] at hj
  have hlen : ∀ i, (rowEdges i (row i)).length = ((row i).filter (fun t => decide (i < t))).length := by
    intro i; simp [rowEdges]
  have hsplit : ∀ i, (row i).length = ((row i).filter (fun t => decide (i < t))).length +
      ((row i).filter (fun t => decide (t < i))).length + (if (row i).count i == 1 then 1 else 0) := by
    intro i
    have hc : (if (row i).count i == 1 then 1 else 0) = (row i).count i := by
      have := List.nodup_iff_count_le_one.1 (hnd i) i
      by_cases h1 : (row i).count i = 1
      · simp [h1]
      · have : (row i).count i = 0 := by omega
        simp [this]
    rw [hc]
    generalize row i = l
    induction l with
    | nil => simp
    | cons a l ih =>
      simp only [List.length_cons, List.filter_cons, List.count_cons]
      rcases Nat.lt_trichotomy a i with h1 | h1 | h1
      · simp [h1, Nat.lt_asymm h1, Nat.ne_of_lt h1]; omega
      · simp [h1]; omega
      · simp [h1, Nat.lt_asymm h1, Nat.ne_of_gt h1]; omega
  have e1 : ((List.range n).map (fun i => (row i).length)).sum =
      ∑ i ∈ Finset.range n, ((row i).filter (fun t => decide (i < t))).length +
      ∑ i ∈ Finset.range n, ((row i).filter (fun t => decide (t < i))).length +
      ∑ i ∈ Finset.range n, (if (row i).count i == 1 then 1 else 0) := by
    rw [sum_range_list, ← Finset.sum_add_distrib, ← Finset.sum_add_distrib]
    exact Finset.sum_congr rfl (fun i _ => hsplit i)
  have e2 : ∑ i ∈ Finset.range n, ((row i).filter (fun t => decide (t < i))).length =
      ∑ i ∈ Finset.range n, ((row i).filter (fun t => decide (i < t))).length := by
    simp only [length_filter_eq_sum (hnd _) (hrg _)]
    rw [Finset.sum_comm]
    refine Finset.sum_congr rfl (fun i _ => Finset.sum_congr rfl (fun j _ => ?_))
    have : (i ∈ row j ∧ decide (i < j) = true) ↔ (j ∈ row i ∧ decide (i < j) = true) := by
      constructor
      · rintro ⟨a, b⟩; exact ⟨hsym _ _ a, b⟩
      · rintro ⟨a, b⟩; exact ⟨hsym _ _ a, b⟩
    simp only [this]
  have e3 : ((List.range n).map (fun i => (rowEdges i (row i)).length)).sum =
      ∑ i ∈ Finset.range n, ((row i).filter (fun t => decide (i < t))).length := by
    rw [sum_range_list]; exact Finset.sum_congr rfl (fun i _ => hlen i)
  have e4 : (List.range n).countP (fun v => (row v).count v == 1) =
      ∑ i ∈ Finset.range n, (if (row i).count i == 1 then 1 else 0) := by
    rw [← sum_range_list]
    generalize List.range n = l
    induction l with
    | nil => simp
    | cons a l ih => simp only [List.countP_cons, List.map_cons, List.sum_cons, ih]; omega
  show ((List.range n).map (fun i => (row i).length)).sum =
    2 * ((List.range n).map (fun i => (rowEdges i (row i)).length)).sum + (List.range n).countP (fun v => (row v).count v == 1)
  rw [e1, e2, e3, e4]; omega

theorem Reachable.goodP (hP : OpInv P) (h0 : P DefaultGraph.new)
    (hadj : ∀ adj g, FromAdj adj g → P g) (h : Reachable g) : Good P g := by
  induction h with
  | new => exact Good.new h0
  | fromAdjacency adj g hg =>
    have := fromAdj_of_ok hg
    exact ⟨this.wf, this.sym, hadj adj g this⟩
  | fromEdges es g hg => exact Good.tryFromEdges hP h0 hg
  | addNode g id _ ih => exact ih.addNode hP id
  | addEdge g s t _ ih => exact ih.addEdge hP s t

theorem Reachable.handshake (h : Reachable g) : Handshake g :=
  (h.goodP opInv_handshake (by simp [Handshake, DefaultGraph.new]) (fun _ _ => FromAdj.handshake)).2.2

/-- Self-loops: the edge list has the loop exactly when the neighbor list has the node twice. -/
structure LoopExact (g : DefaultGraph) : Prop where
  nodup : g.edges.Nodup
  count : ∀ v, (g.toI.nbr v).count v = 0 ∨ ((g.toI.nbr v).count v = 1 ∧ (v, v) ∉ g.edges) ∨
    ((g.toI.nbr v).count v = 2 ∧ (v, v) ∈ g.edges)

theorem opInv_loopExact : OpInv LoopExact where
  node := fun g g' id hw _ hp hm a => by
    refine ⟨by rw [a.edges]; exact hp.nodup, fun v => ?_⟩
    by_cases hv : v = id
    · subst hv; rw [a.nbr_new]; simp
    · rw [a.nbr_old hv, a.edges]; exact hp.count v
  edge := fun g g' s t hw hsy hp hs ht hna a => by
    refine ⟨?_, fun v => ?_⟩
    · rw [a.edges]
      refine List.nodup_append.2 ⟨hp.nodup, by simp, ?_⟩
      intro x hx y hy hxy
      simp at hy; subst hy; subst hxy
      exact hna (hsy.edges_adj _ _ hx)
    · by_cases hv : v ∈ g.nodes
      · rw [a.nbr hw hv, a.edges]
        have := hp.count v
        by_cases e1 : v = s
        · by_cases e2 : v = t
          · subst e1; subst e2
            have : (g.toI.nbr v).count v = 0 := by
              rw [List.count_eq_zero, GraphI.mem_nbr]; exact hna
            simp [this]
          · subst e1; simp [e2, List.count_cons, Ne.symm e2]; exact this
        · by_cases e2 : v = t
          · subst e2; simp [e1, List.count_cons, Ne.symm e1]; exact this
          · simp [e1, e2]; exact this
      · left
        rw [List.count_eq_zero, GraphI.mem_nbr]
        intro hc
        have := a.wf.adj_src hc
        rw [a.nodes] at this; exact hv this

theorem Reachable.loopExact (h : Reachable g) : LoopExact g := by
  refine (h.goodP opInv_loopExact ⟨by simp [DefaultGraph.new], ?_⟩ ?_).2.2
  · intro v; left; rw [List.count_eq_zero, GraphI.mem_nbr]
    rintro ⟨l, hl, -⟩; simp [toI, DefaultGraph.neighbors, indexFor, DefaultGraph.new] at hl
  · intro adj g hg
    refine ⟨hg.edges_nodup, fun v => ?_⟩
    have hc : (g.toI.nbr v).count v ≤ 1 := by
      rw [hg.nbr]
      by_cases hi : v < adj.length
      · rw [List.getElem?_eq_getElem hi]
        exact List.nodup_iff_count_le_one.1 (hg.valid.noRepeat v _ (List.getElem?_eq_getElem hi)) v
      · rw [List.getElem?_eq_none (by omega)]; simp
    have : (v, v) ∉ g.edges := by rw [hg.edges, mem_adjEdges]; omega
    rcases Nat.le_one_iff_eq_zero_or_eq_one.1 hc with h | h
    · exact .inl h
    · exact .inr (.inl ⟨h, this⟩)

end DefaultGraph
end Gamma
