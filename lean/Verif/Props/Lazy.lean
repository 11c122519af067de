import Verif.Proofs.Lazy
import Verif.Props.AnyGraph
/-
C89: traversals are lazy.  What they yield depends on the neighbors of the nodes discovered so far only; so they work on
graphs too large to be listed, infinite ones included.  (Nothing is assumed of the graph, and `nodes()` is never asked for.)
-/
namespace Gamma

/-! ### Examples -/

/-- A graph given by its neighbors only. -/
def implicitG (nbr : Nat → List Nat) : GraphI where
  isEmpty := false
  order := 0
  size := 0
  nodes := []
  neighbors := fun v => .ok (nbr v)
  hasNode := fun _ => true
  degree := fun v => .ok (nbr v).length
  edges := []
  hasEdge := fun u v => .ok ((nbr u).contains v)

/-- The infinite binary tree; neighbors are the children. -/
def treeG : GraphI := implicitG (fun n => [2 * n + 1, 2 * n + 2])

/-- An infinite undirected path 0, 2, 3, 4, … with one more node, 1, at its end 0. -/
def rayG : GraphI := implicitG (fun n => match n with | 0 => [2, 1] | 1 => [0] | 2 => [0, 3] | n + 3 => [n + 2, n + 4])

theorem implicitG_adj {nbr : Nat → List Nat} {u v : Nat} : (implicitG nbr).Adj u v ↔ v ∈ nbr u := by
  constructor
  · rintro ⟨l, h1, h2⟩
    simp [implicitG] at h1; subst h1; exact h2
  · intro h; exact ⟨_, rfl, h⟩

/-! ### C89 -/

/-- **C89, lazy.**  Whatever the graph, the steps a breadth-first traversal has yielded depend on the neighbors of the nodes it has
discovered only: they are the first steps in one graph exactly if they are in another with the same neighbors there. -/
theorem C89_bfs_lazy (g h : GraphI) (root : Nat) (steps : List Step)
    (hn : ∀ v ∈ discovered root steps, h.neighbors v = g.neighbors v) :
    BreadthFirst.Begins g root steps ↔ BreadthFirst.Begins h root steps :=
  ⟨BreadthFirst.begins_congr hn, BreadthFirst.begins_congr (fun v hv => (hn v hv).symm)⟩

/-- **C89, lazy, depth-first.**  And so do those a depth-first traversal has yielded. -/
theorem C89_dfs_lazy (g h : GraphI) (root : Nat) (steps : List Step)
    (hn : ∀ v ∈ discovered root steps, h.neighbors v = g.neighbors v) :
    DepthFirst.Begins g root steps ↔ DepthFirst.Begins h root steps :=
  ⟨DepthFirst.begins_congr hn, DepthFirst.begins_congr (fun v hv => (hn v hv).symm)⟩

/-- **C89, nearest first.**  Whatever the graph, finite or not, and however far a breadth-first traversal went: nodes are discovered
in the order of their distance from the root, each from a node one step nearer, and when a node is discovered, all that are nearer
to the root have been. -/
theorem C89_bfs_nearest_first (g : GraphI) (root : Nat) (steps : List Step) (h : BreadthFirst.Begins g root steps) :
    (discovered root steps).Pairwise (fun x y => g.hops root x ≤ g.hops root y) ∧
    (∀ s ∈ steps, s.cut = false → g.hops root s.tid = g.hops root s.sid + 1) ∧
    ∀ v ∈ discovered root steps, ∀ u, g.LeadsTo root u → g.hops root u < g.hops root v → u ∈ discovered root steps :=
  ⟨h.hops.2.1, h.hops.1, h.hops.2.2⟩

/-- **C89, finds.**  A breadth-first traversal discovers every node that following `neighbors` leads to after finitely many calls of
`next`, even if the graph is infinite, provided the nodes that are not further away answer. -/
theorem C89_bfs_finds (g : GraphI) (root v : Nat) (hv : g.LeadsTo root v)
    (hA : ∀ u, g.LeadsTo root u → g.hops root u ≤ g.hops root v → ∃ l, g.neighbors u = .ok l) :
    ∃ steps, BreadthFirst.Begins g root steps ∧ v ∈ discovered root steps :=
  BreadthFirst.finds hv hA

/-- **C89, goes on.**  If the root leads to infinitely many nodes, which all answer, a breadth-first traversal never ends: any number
of calls of `next` yield steps. -/
theorem C89_bfs_goes_on (g : GraphI) (root : Nat) (hA : ∀ u, g.LeadsTo root u → ∃ l, g.neighbors u = .ok l)
    (hinf : {v | g.LeadsTo root v}.Infinite) (n : Nat) :
    ∃ steps, steps.length = n ∧ BreadthFirst.Begins g root steps := by
  refine BreadthFirst.goes_on hA (fun L => ?_) n
  by_contra hc
  push Not at hc
  exact hinf ((List.finite_toSet L).subset (fun v hv => hc v hv))

/-- How a depth-first traversal of `rayG` goes. -/
theorem rayG_dfs (n : Nat) : ∀ d : DepthFirst, (∃ k, (∀ x ∈ d.nodes, x = 0 ∨ (2 ≤ x ∧ x ≤ k + 2)) ∧ d.stack = [(k + 2, k + 3), (0, 1)]) →
    ∀ l d', l.length = n → Trace (DepthFirst.next rayG) d l d' → ∀ s ∈ l, s.tid ≠ 1 := by
  induction n with
  | zero => intro d _ l d' hl _ s hs; rw [List.length_eq_zero_iff] at hl; subst hl; simp at hs
  | succ n ih =>
    rintro d ⟨k, h1, h2⟩ l d' hl t s hs
    cases t with
    | nil => simp at hl
    | cons _ s1 _ a l hn t =>
      have hk : d.nodes.contains (k + 3) = false := by
        rw [← Bool.not_eq_true, List.contains_iff_mem]
        intro hm
        rcases h1 _ hm with h | h <;> omega
      have hk4 : k + 4 ∉ d.nodes := by
        intro hm
        rcases h1 _ hm with h | h <;> omega
      have hstep : DepthFirst.next rayG d =
          .ok (some ⟨k + 2, k + 3, false⟩, ⟨(k + 3) :: d.nodes, [(k + 3, k + 4), (0, 1)]⟩) := by
        simp only [DepthFirst.next, h2, hk]
        simp [rayG, implicitG, Out.expect, DepthFirst.pushNeighbor, hk4]
      rw [hstep] at hn
      simp at hn
      obtain ⟨rfl, rfl⟩ := hn
      rcases List.mem_cons.1 hs with rfl | hs
      · simp
      · refine ih _ ⟨k + 1, ?_, rfl⟩ l d' (by simpa using hl) t s hs
        intro x hx
        rcases List.mem_cons.1 hx with rfl | hx
        · right; omega
        · rcases h1 x hx with h | h
          · exact .inl h
          · right; omega

/-- **C89, depth-first traversal need not find**: on an infinite undirected graph it may never discover a neighbor of the root, however
often `next` is called, which a breadth-first traversal discovers with the second step. -/
theorem C89_dfs_may_never_find :
    ∃ (g : GraphI) (root v : Nat), (∀ x y, g.Adj x y → g.Adj y x) ∧ (∀ x, ∃ l, g.neighbors x = .ok l) ∧ g.Adj root v ∧
      (∀ steps, DepthFirst.Begins g root steps → v ∉ discovered root steps) ∧
      (∀ n, ∃ steps, steps.length = n ∧ DepthFirst.Begins g root steps) ∧
      ∃ steps, steps.length = 2 ∧ BreadthFirst.Begins g root steps ∧ v ∈ discovered root steps := by
  refine ⟨rayG, 0, 1, ?_, fun x => ⟨_, rfl⟩, ⟨_, rfl, by decide⟩, ?_, ?_, [⟨0, 2, false⟩, ⟨0, 1, false⟩], rfl,
    ⟨_, rfl, by decide +kernel⟩, by decide⟩
  · intro x y h
    rw [rayG, implicitG_adj] at h ⊢
    match x with
    | 0 => simp at h; rcases h with rfl | rfl <;> simp
    | 1 => simp at h; subst h; simp
    | 2 => simp at h; rcases h with rfl | rfl <;> simp
    | n + 3 =>
      simp at h
      rcases h with rfl | rfl
      · match n with
        | 0 => simp
        | n + 1 => simp
      · simp
  · intro steps hb
    obtain ⟨d, d', hd, t, -⟩ := hb.winv
    have hd' : DepthFirst.new rayG 0 = .ok ⟨[0], [(0, 2), (0, 1)]⟩ := rfl
    rw [hd'] at hd
    simp at hd; subst hd
    have h1 : DepthFirst.next rayG ⟨[0], [(0, 2), (0, 1)]⟩ = .ok (some ⟨0, 2, false⟩, ⟨[2, 0], [(2, 3), (0, 1)]⟩) := by decide +kernel
    have hall : ∀ s ∈ steps, s.tid ≠ 1 := by
      cases t with
      | nil => simp
      | cons _ s1 _ a l hn t =>
        rw [h1] at hn
        simp at hn
        obtain ⟨rfl, rfl⟩ := hn
        intro s hs
        rcases List.mem_cons.1 hs with rfl | hs
        · simp
        · exact rayG_dfs _ _ ⟨0, by simp, rfl⟩ l d' rfl t s hs
    intro hm
    simp only [discovered, List.mem_cons, List.mem_map, List.mem_filter] at hm
    rcases hm with h | ⟨s, hs, he⟩
    · omega
    · exact hall s hs.1 he
  · intro n
    obtain ⟨l, d', h1, t, -⟩ := Trace.exists_of_progress (next := DepthFirst.next rayG)
      (fun _ d => (∃ k, (∀ x ∈ d.nodes, x = 0 ∨ (2 ≤ x ∧ x ≤ k + 2)) ∧ d.stack = [(k + 2, k + 3), (0, 1)]) ∨
        d = ⟨[0], [(0, 2), (0, 1)]⟩) (fun _ d hd => by
        rcases hd with ⟨k, h1, h2⟩ | rfl
        · have hk : k + 3 ∉ d.nodes := by
            intro hm
            rcases h1 _ hm with h | h <;> omega
          have hk4 : k + 4 ∉ d.nodes := by
            intro hm
            rcases h1 _ hm with h | h <;> omega
          refine ⟨⟨k + 2, k + 3, false⟩, ⟨(k + 3) :: d.nodes, [(k + 3, k + 4), (0, 1)]⟩, ?_, .inl ⟨k + 1, ?_, rfl⟩⟩
          · simp only [DepthFirst.next, h2, List.contains_iff_mem, hk]
            simp [rayG, implicitG, Out.expect, DepthFirst.pushNeighbor, hk4]
          · intro x hx
            rcases List.mem_cons.1 hx with rfl | hx
            · right; omega
            · rcases h1 x hx with h | h
              · exact .inl h
              · right; omega
        · exact ⟨⟨0, 2, false⟩, ⟨[2, 0], [(2, 3), (0, 1)]⟩, by decide +kernel, .inl ⟨0, by simp, rfl⟩⟩) n []
      ⟨[0], [(0, 2), (0, 1)]⟩ (.inr rfl)
    exact ⟨l, h1, DepthFirst.begins_of_trace rfl t⟩

/-- The hypotheses of C89 hold for the infinite binary tree: all nodes answer, the root leads to all of them, … -/
theorem treeG_leadsTo (v : Nat) : treeG.LeadsTo 0 v := by
  induction v using Nat.strong_induction_on with
  | _ v ih =>
    match v with
    | 0 => exact .refl
    | n + 1 =>
      refine (ih (n / 2) (by omega)).tail (implicitG_adj.2 ?_)
      simp
      omega

example : (∀ u, treeG.LeadsTo 0 u → ∃ l, treeG.neighbors u = .ok l) ∧ {v | treeG.LeadsTo 0 v}.Infinite ∧
    BreadthFirst.Begins treeG 0 [⟨0, 1, false⟩, ⟨0, 2, false⟩, ⟨1, 3, false⟩, ⟨1, 4, false⟩] ∧
    DepthFirst.Begins treeG 0 [⟨0, 1, false⟩, ⟨1, 3, false⟩, ⟨3, 7, false⟩] := by
  refine ⟨fun u _ => ⟨_, rfl⟩, ?_, ⟨_, rfl, by decide +kernel⟩, ⟨_, rfl, by decide +kernel⟩⟩
  rw [Set.eq_univ_of_forall (s := {v | treeG.LeadsTo 0 v}) treeG_leadsTo]
  exact Set.infinite_univ

/-- … and a graph that agrees with it where these steps have been, but fails elsewhere, begins in the same way. -/
example : DepthFirst.Begins (oneWay [(0, [1, 2]), (1, [3, 4]), (3, [7, 8]), (7, [15, 16])]) 0
    [⟨0, 1, false⟩, ⟨1, 3, false⟩, ⟨3, 7, false⟩] :=
  (C89_dfs_lazy treeG _ 0 _ (by decide +kernel)).1 ⟨_, rfl, by decide +kernel⟩

end Gamma
