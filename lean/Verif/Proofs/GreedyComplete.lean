import Verif.Proofs.DfsDeep
import Verif.Props.GreedyExact
/-
The depth-first traversal of a complete graph whose nodes and neighbors are listed in order.
-/
namespace Gamma
namespace DepthFirst

theorem push_up {visited : List Nat} {parent node : Nat} {L : List Nat} (h : ∀ x ∈ L, x ∉ visited ∧ x ≠ parent)
    (S : List (Nat × Nat)) : L.reverse.foldl (pushNeighbor visited parent node) S = L.map (fun x => (node, x)) ++ S := by
  induction L with
  | nil => rfl
  | cons a L ih =>
    rw [List.reverse_cons, List.foldl_append, ih (fun x hx => h x (by simp [hx]))]
    have := h a (by simp)
    simp [pushNeighbor, this.1, this.2]

theorem push_down {visited : List Nat} {parent node : Nat} {L : List Nat} (h : ∀ x ∈ L, x ∈ visited ∧ x ≠ parent ∧ x ≠ node)
    (S : List (Nat × Nat)) : L.reverse.foldl (pushNeighbor visited parent node) S =
      L.map (fun x => (node, x)) ++ S.filter (fun e => L.all fun w => e.1 != w && e.2 != node) := by
  induction L with
  | nil => simp
  | cons a L ih =>
    rw [List.reverse_cons, List.foldl_append, ih (fun x hx => h x (by simp [hx]))]
    have ha := h a (by simp)
    have hL : (L.map (fun x => (node, x))).filter (fun e => e.1 != a && e.2 != node) = L.map (fun x => (node, x)) := by
      rw [List.filter_eq_self]
      intro e he
      obtain ⟨x, hx, rfl⟩ := List.mem_map.1 he
      have := h x (by simp [hx])
      simp [ha.2.2.symm, this.2.2]
    have hd : pushNeighbor visited parent node
        (L.map (fun x => (node, x)) ++ S.filter (fun e => L.all fun w => e.1 != w && e.2 != node)) a =
        (node, a) :: (L.map (fun x => (node, x)) ++ S.filter (fun e => L.all fun w => e.1 != w && e.2 != node)).filter
          (fun e => e.1 != a && e.2 != node) := by
      simp [pushNeighbor, ha.1, ha.2.1]
    rw [List.foldl_cons, List.foldl_nil, hd, List.filter_append, hL, List.filter_filter]
    simp only [List.map_cons, List.cons_append, List.all_cons]

/-- What is on the stack just after `u` was discovered. -/
def upStack (n u : Nat) : List (Nat × Nat) :=
  (List.range (u - 1)).map (fun x => (u, x)) ++ ((List.range' (u + 1) (n - u - 1)).map (fun x => (u, x)) ++
    if u = 0 then [] else (List.range' (u + 1) (n - u - 1)).map (fun x => (u - 1, x)))

/-- The steps that discover `u` and go back from it. -/
def upSteps (u : Nat) : List Step := ⟨u - 1, u, false⟩ :: (List.range (u - 1)).map (fun x => ⟨u, x, true⟩)

variable {g : GraphI} {n : Nat}

theorem range_split {u : Nat} (hu : u < n) :
    (List.range n).filter (· != u) = List.range u ++ List.range' (u + 1) (n - u - 1) := by
  have e : List.range n = List.range u ++ (u :: List.range' (u + 1) (n - u - 1)) := by
    rw [← List.range'_succ, List.range_eq_range', List.range_eq_range']
    have := List.range'_append (s := 0) (m := u) (n := n - u - 1 + 1) (step := 1)
    simp only [one_mul, Nat.zero_add] at this
    rw [this]; congr 1; omega
  rw [e, List.filter_append]
  congr 1
  · rw [List.filter_eq_self]; intro x hx; simp at hx; simp; omega
  · rw [List.filter_cons_of_neg (by simp), List.filter_eq_self]
    intro x hx
    rw [List.mem_range'_1] at hx
    simp; omega

theorem range_succ_split (u : Nat) : List.range (u + 1) = List.range u ++ [u] := List.range_succ

theorem cuts_trace (g : GraphI) (N : List Nat) (u : Nat) (L : List Nat) (hL : ∀ x ∈ L, x ∈ N) (S : List (Nat × Nat)) :
    Trace (next g) ⟨N, L.map (fun x => (u, x)) ++ S⟩ (L.map (fun x => ⟨u, x, true⟩)) ⟨N, S⟩ := by
  induction L with
  | nil => exact .nil _
  | cons a L ih =>
    refine .cons _ ⟨N, L.map (fun x => (u, x)) ++ S⟩ _ _ _ ?_ (ih (fun x hx => hL x (by simp [hx])))
    simp [next, hL a (by simp)]

theorem up_next (hn : ∀ u, u < n → g.neighbors u = .ok ((List.range n).filter (· != u))) {u : Nat} (hu : u + 1 < n) {N : List Nat}
    (hN : ∀ x, x ∈ N ↔ x ≤ u) :
    next g ⟨N, (List.range' (u + 1) (n - u - 1)).map (fun x => (u, x)) ++
      if u = 0 then [] else (List.range' (u + 1) (n - u - 1)).map (fun x => (u - 1, x))⟩ =
      .ok (some ⟨u, u + 1, false⟩, ⟨(u + 1) :: N, upStack n (u + 1)⟩) := by
  obtain ⟨m, hm⟩ : ∃ m, n - u - 1 = m + 1 := ⟨n - u - 2, by omega⟩
  have hm' : n - (u + 1) - 1 = m := by omega
  have hR : ∀ x, x ∈ List.range' (u + 1 + 1) m → u + 1 < x := by
    intro x hx; rw [List.mem_range'_1] at hx; omega
  set Q : List (Nat × Nat) := if u = 0 then [] else (List.range' (u + 1) (n - u - 1)).map (fun x => (u - 1, x)) with hQ
  rw [hm, List.range'_succ]
  simp only [List.map_cons, List.cons_append, next]
  have hc : N.contains (u + 1) = false := by
    simp [hN]
  rw [hc, hn _ hu, range_split hu, hm', range_succ_split]
  simp only [Out.expect, Bool.false_eq_true, if_false]
  show Out.ok _ = _
  congr 3
  simp only [List.reverse_append, List.foldl_append, List.append_assoc]
  rw [push_up (L := List.range' (u + 1 + 1) m) (fun x hx => ⟨by rw [hN]; have := hR x hx; omega, by have := hR x hx; omega⟩)]
  have hskip : ∀ S, [u].reverse.foldl (pushNeighbor N u (u + 1)) S = S := by intro S; simp [pushNeighbor]
  rw [hskip, push_down (L := List.range u) (fun x hx => by simp at hx; exact ⟨by rw [hN]; omega, by omega, by omega⟩)]
  unfold upStack
  simp only [Nat.add_sub_cancel, hm', Nat.add_eq_zero_iff, one_ne_zero, and_false, if_false]
  congr 1
  rw [List.filter_append, List.filter_append]
  congr 1
  · rw [List.filter_eq_self]
    intro e he
    obtain ⟨x, hx, rfl⟩ := List.mem_map.1 he
    have := hR x hx
    simp; intro w hw; omega
  · have h1 : ((List.range' (u + 1 + 1) m).map (fun x => (u, x))).filter
        (fun e => (List.range u).all fun w => e.1 != w && e.2 != u + 1) = (List.range' (u + 1 + 1) m).map (fun x => (u, x)) := by
      rw [List.filter_eq_self]
      intro e he
      obtain ⟨x, hx, rfl⟩ := List.mem_map.1 he
      have := hR x hx
      simp; intro w hw; omega
    have h2 : Q.filter (fun e => (List.range u).all fun w => e.1 != w && e.2 != u + 1) = [] := by
      rw [List.filter_eq_nil_iff]
      intro e he
      rw [hQ] at he
      split at he
      · simp at he
      · obtain ⟨x, hx, rfl⟩ := List.mem_map.1 he
        simp
        refine ⟨u - 1, by omega, fun h => ?_⟩
        omega
    rw [h1, h2, List.append_nil]

theorem up_trace (hn : ∀ u, u < n → g.neighbors u = .ok ((List.range n).filter (· != u))) (k : Nat) :
    ∀ u, u + k + 1 = n → ∀ N : List Nat, (∀ x, x ∈ N ↔ x ≤ u) → ∃ N',
      Trace (next g) ⟨N, upStack n u⟩ ((List.range (u - 1)).map (fun x => ⟨u, x, true⟩) ++ (List.range' (u + 1) k).flatMap upSteps)
        ⟨N', []⟩ := by
  induction k with
  | zero =>
    intro u hu N hN
    refine ⟨N, ?_⟩
    have e : n - u - 1 = 0 := by omega
    have := cuts_trace g N u (List.range (u - 1)) (fun x hx => by rw [hN]; simp at hx; omega) []
    simpa [upStack, e] using this
  | succ k ih =>
    intro u hu N hN
    obtain ⟨N', h⟩ := ih (u + 1) (by omega) ((u + 1) :: N) (fun x => by simp [hN]; omega)
    refine ⟨N', ?_⟩
    refine (cuts_trace g N u (List.range (u - 1)) (fun x hx => by rw [hN]; simp at hx; omega) _).append ?_
    rw [List.range'_succ, List.flatMap_cons]
    exact .cons _ _ _ _ _ (up_next hn (by omega) hN) h

/-- The traversal of a complete graph listed in order. -/
theorem up_run (hn : ∀ u, u < n → g.neighbors u = .ok ((List.range n).filter (· != u))) (h0 : 0 < n) :
    Run g 0 ((List.range' 1 (n - 1)).flatMap upSteps) := by
  obtain ⟨N', h⟩ := up_trace hn (n - 1) 0 (by omega) [0] (by simp)
  refine ⟨⟨[0], upStack n 0⟩, ?_, endsAfter_of_trace (by simpa using h) rfl⟩
  unfold new
  rw [hn 0 h0, range_split h0]
  simp [upStack, Out.ok_bind]

end DepthFirst
end Gamma
