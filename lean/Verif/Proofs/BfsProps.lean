import Verif.Proofs.Bfs
/-
Consequences of the breadth-first invariant at the end of the run.
-/
namespace Gamma
namespace BreadthFirst
variable {g : GraphI}

theorem count_map_pair (u v x : Nat) (l : List Nat) :
    (l.map (fun n => (x, n))).count (u, v) = if x = u then l.count v else 0 := by
  induction l with
  | nil => simp
  | cons a l ih =>
    rw [List.map_cons, List.count_cons, List.count_cons, ih]
    by_cases h : x = u
    · simp [h]
    · simp [h]

theorem count_filter_not_mem (l seen : List Nat) (v : Nat) :
    (l.filter (fun n => !seen.contains n)).count v = if v ∈ seen then 0 else l.count v := by
  by_cases h : v ∈ seen
  · rw [if_pos h, List.count_eq_zero]; simp [h]
  · rw [if_neg h, List.count_filter]; simpa using h

theorem count_queued_src {seen : List Nat} {u v : Nat} (hu : u ∉ seen) : (queued g seen).count (u, v) = 0 := by
  rw [List.count_eq_zero]
  intro h; exact hu (mem_queued h).1

theorem count_queued {seen : List Nat} (hn : seen.Nodup) {u v : Nat} (hu : u ∈ seen) (hv : v ∉ seen) :
    (queued g seen).count (u, v) = (g.nbr u).count v := by
  induction seen with
  | nil => simp at hu
  | cons x seen ih =>
    rw [List.nodup_cons] at hn
    simp only [List.mem_cons, not_or] at hv
    rw [queued, List.count_append, count_map_pair, count_filter_not_mem]
    by_cases hx : x = u
    · subst hx
      rw [count_queued_src hn.1]; simp [hv.2]
    · have : u ∈ seen := by simpa [Ne.symm hx] using hu
      rw [ih hn.2 this hv.2]; simp [hx]

theorem count_queued_both (hg : g.Lawful) {seen : List Nat} (hn : seen.Nodup) {u v : Nat} (hu : u ∈ seen) (hv : v ∈ seen)
    (hne : u ≠ v) (ha : g.Adj u v) : (queued g seen).count (u, v) + (queued g seen).count (v, u) = 1 := by
  induction seen with
  | nil => simp at hu
  | cons x seen ih =>
    rw [List.nodup_cons] at hn
    rw [queued, List.count_append, List.count_append, count_map_pair, count_map_pair, count_filter_not_mem,
      count_filter_not_mem]
    by_cases hx : x = u
    · subst hx
      have hvs : v ∈ seen := by simpa [Ne.symm hne] using hv
      rw [count_queued_src hn.1, count_queued hn.2 hvs hn.1, hg.nbr_count (Ne.symm hne) (hg.adj_symm _ _ ha)]
      simp [hvs, hne]
    · have hus : u ∈ seen := by simpa [Ne.symm hx] using hu
      by_cases hx' : x = v
      · subst hx'
        rw [count_queued_src hn.1, count_queued hn.2 hus hn.1, hg.nbr_count hne ha]
        simp [hus, hx]
      · have hvs : v ∈ seen := by simpa [Ne.symm hx'] using hv
        simp [hx, hx', ih hn.2 hus hvs]

theorem mem_queued_of {l1 l2 : List Nat} {u v : Nat} (hv : v ∈ g.nbr u) (h2 : v ∉ l2) :
    (u, v) ∈ queued g (l1 ++ u :: l2) := by
  induction l1 with
  | nil => simp [queued, hv, h2]
  | cons a l1 ih => simp only [List.cons_append, queued]; exact List.mem_append_left _ ih

variable {root : Nat} {st : List Step} {b : BreadthFirst}

theorem Inv.pairs (h : Inv g root st b) (hq : b.queue = []) : st.map Step.pair = queued g b.nodes := by
  rw [← h.queue, hq, List.append_nil]

theorem Inv.nodes_nodup (h : Inv g root st b) : b.nodes.Nodup := by
  rw [h.nodes]; exact List.nodup_reverse.2 h.truth.nodup

theorem Inv.closed (h : Inv g root st b) (hq : b.queue = []) (u v : Nat)
    (hu : u ∈ discovered root st) (ha : g.Adj u v) : v ∈ discovered root st := by
  have hu' : u ∈ b.nodes := by rw [h.nodes, List.mem_reverse]; exact hu
  obtain ⟨l1, l2, hl⟩ := List.append_of_mem hu'
  by_cases h2 : v ∈ l2
  · have : v ∈ b.nodes := by rw [hl]; simp [h2]
    rwa [h.nodes, List.mem_reverse] at this
  · have := mem_queued_of (l1 := l1) (GraphI.mem_nbr.2 ha) h2
    rw [← hl, ← h.pairs hq, List.mem_map] at this
    obtain ⟨s, hs, he⟩ := this
    have hx := h.truth.tid_mem hs
    simp only [Step.pair, Prod.mk.injEq] at he
    rw [he.2] at hx; exact hx

theorem joinCount_eq (u v : Nat) (hne : u ≠ v) (st : List Step) :
    joinCount u v st = (st.map Step.pair).count (u, v) + (st.map Step.pair).count (v, u) := by
  unfold joinCount
  induction st with
  | nil => simp
  | cons s st ih =>
    rw [List.countP_cons, ih, List.map_cons, List.count_cons, List.count_cons]
    obtain ⟨a, b, c⟩ := s
    simp only [Step.pair, beq_iff_eq, Prod.mk.injEq, decide_eq_true_eq]
    by_cases h1 : a = u ∧ b = v
    · obtain ⟨rfl, rfl⟩ := h1
      have h3 : ¬ (a = b ∧ b = a) := fun hc => hne hc.1
      simp [h3]; omega
    · by_cases h2 : a = v ∧ b = u
      · simp only [h2, and_self, or_true, h1, if_false, if_true]
        have h3 : ¬ (v = u ∧ u = v) := fun hc => hne hc.2
        simp [h3]; omega
      · simp [h1, h2]

theorem Inv.joinCount (hg : g.Lawful) (h : Inv g root st b) (hq : b.queue = []) {u v : Nat}
    (hu : u ∈ discovered root st) (hne : u ≠ v) (ha : g.Adj u v) : joinCount u v st = 1 := by
  have hv := h.closed hq u v hu ha
  rw [joinCount_eq u v hne, h.pairs hq]
  apply count_queued_both hg h.nodes_nodup _ _ hne ha
  · rw [h.nodes, List.mem_reverse]; exact hu
  · rw [h.nodes, List.mem_reverse]; exact hv

theorem queued_reverse (D : List Nat) : queued g D.reverse =
    (D.mapIdx (fun i v => ((g.nbr v).filter (fun w => !(D.take i).contains w)).map (fun w => (v, w)))).flatten := by
  induction D using List.reverseRecOn with
  | nil => simp [queued]
  | append_singleton D x ih =>
    rw [List.reverse_append, List.reverse_singleton, List.singleton_append, queued, ih, List.mapIdx_append,
      List.flatten_append]
    congr 1
    · congr 1
      apply List.ext_getElem
      · simp
      · intro i h1 h2
        simp only [List.length_mapIdx] at h1
        simp [List.take_append_of_le_length (Nat.le_of_lt h1)]
    · simp

theorem Inv.level_eq_dist (hg : g.Lawful) (h : Inv g root st b) (hq : b.queue = []) :
    (∀ s ∈ st, s.cut = false → g.simple.dist root s.tid = g.simple.dist root s.sid + 1) ∧
    (discovered root st).Pairwise (fun x y => g.simple.dist root x ≤ g.simple.dist root y) := by
  obtain ⟨ℓ, l0, l1, l2, l3, l4, l5⟩ := h.level
  have hreach := h.truth.reachable hg (fun s hs => h.step_adj hs)
  -- adjacent discovered nodes have levels differing by at most one
  have hadj : ∀ u v, u ∈ discovered root st → g.Adj u v → ℓ v ≤ ℓ u + 1 := by
    intro u v hu ha
    have hu' : u ∈ b.nodes := by rw [h.nodes, List.mem_reverse]; exact hu
    obtain ⟨n1, n2, hl⟩ := List.append_of_mem hu'
    by_cases h2 : v ∈ n2
    · have hd : discovered root st = n2.reverse ++ u :: n1.reverse := by
        have := congrArg List.reverse hl
        rw [h.nodes, List.reverse_reverse] at this
        rw [this]; simp
      rw [hd, List.pairwise_append] at l2
      have := l2.2.2 v (by simp [h2]) u (by simp)
      omega
    · have := mem_queued_of (l1 := n1) (GraphI.mem_nbr.2 ha) h2
      rw [← hl, ← h.pairs hq, List.mem_map] at this
      obtain ⟨s, hs, he⟩ := this
      have hx := l5 s hs
      simp only [Step.pair, Prod.mk.injEq] at he
      rw [he.1, he.2] at hx; exact hx
  have hle : ∀ v u, ∀ w : g.simple.Walk u v, u ∈ discovered root st → ℓ v ≤ ℓ u + w.length := by
    intro v u w
    induction w with
    | nil => intro _; simp
    | cons ha w ih =>
      intro hu
      have ha' := ((hg.simple_adj).1 ha).2
      have := hadj _ _ hu ha'
      have := ih (h.closed hq _ _ hu ha')
      rw [SimpleGraph.Walk.length_cons]; omega
  have hge : ∀ st', (∃ post, st = st' ++ post) → ∀ v ∈ discovered root st', g.simple.dist root v ≤ ℓ v := by
    intro st'
    induction st' using List.reverseRecOn with
    | nil => intro _ v hv; simp [discovered] at hv; subst hv; simp
    | append_singleton st' s ih =>
      rintro ⟨post, hst⟩ v hv
      have ih := ih ⟨s :: post, by rw [hst]; simp⟩
      have hs : s ∈ st := by rw [hst]; simp
      cases hc : s.cut with
      | true => rw [discovered_cut _ _ _ hc] at hv; exact ih v hv
      | false =>
        rw [discovered_new _ _ _ hc, List.mem_append] at hv
        rcases hv with hv | hv
        · exact ih v hv
        · simp at hv; subst hv
          have ht := h.truth st' s post (by rw [hst]; simp)
          have hne : s.sid ≠ s.tid := by
            intro e
            have := ht.2.2 (e ▸ ht.1)
            rw [hc] at this; simp at this
          have hadj' : g.simple.Adj s.sid s.tid := (hg.simple_adj).2 ⟨hne, h.step_adj hs⟩
          have hr : g.simple.Reachable root s.sid := hreach _ (h.truth.sid_mem hs)
          obtain ⟨w, hw⟩ := hr.exists_walk_length_eq_dist
          have := SimpleGraph.dist_le (w.append (SimpleGraph.Walk.cons hadj' .nil))
          rw [SimpleGraph.Walk.length_append, SimpleGraph.Walk.length_cons, SimpleGraph.Walk.length_nil, hw] at this
          have h2 := ih s.sid ht.1
          have h3 := l1 s hs hc
          omega
  have heq : ∀ v ∈ discovered root st, g.simple.dist root v = ℓ v := by
    intro v hv
    apply Nat.le_antisymm (hge st ⟨[], by simp⟩ v hv)
    obtain ⟨w, hw⟩ := (hreach v hv).exists_walk_length_eq_dist
    have := hle v root w (by simp [discovered])
    omega
  refine ⟨?_, ?_⟩
  · intro s hs hc
    rw [heq _ (h.truth.tid_mem hs), heq _ (h.truth.sid_mem hs)]
    exact l1 s hs hc
  · refine l2.imp_of_mem ?_
    intro x y hx hy hle'
    rw [heq x hx, heq y hy]; exact hle'

end BreadthFirst

/-- Every discovered node is the end of a chain of discovery steps from the root. -/
theorem Truthful.tree_path {root : Nat} {st : List Step} (h : Truthful root st) :
    ∀ v ∈ discovered root st, ∃ path : List Nat, path.head? = some root ∧ path.getLast? = some v ∧
      path.IsChain (fun a b => ∃ s ∈ st, s.cut = false ∧ s.sid = a ∧ s.tid = b) := by
  induction st using List.reverseRecOn with
  | nil => intro v hv; simp [discovered] at hv; subst hv; exact ⟨[v], rfl, rfl, by simp⟩
  | append_singleton st s ih =>
    have h' : Truthful root st := by
      intro pre x post he
      exact h pre x (post ++ [s]) (by rw [he]; simp)
    have ih := ih h'
    have hmono : ∀ path : List Nat,
        path.IsChain (fun a b => ∃ s ∈ st, s.cut = false ∧ s.sid = a ∧ s.tid = b) →
        path.IsChain (fun a b => ∃ x ∈ st ++ [s], x.cut = false ∧ x.sid = a ∧ x.tid = b) := by
      intro path hp
      refine hp.imp ?_
      rintro a b ⟨x, hx, hr⟩
      exact ⟨x, by simp [hx], hr⟩
    have hs := h st s [] rfl
    intro v hv
    cases hc : s.cut with
    | true =>
      rw [discovered_cut _ _ _ hc] at hv
      obtain ⟨p, h1, h2, h3⟩ := ih v hv
      exact ⟨p, h1, h2, hmono p h3⟩
    | false =>
      rw [discovered_new _ _ _ hc, List.mem_append] at hv
      rcases hv with hv | hv
      · obtain ⟨p, h1, h2, h3⟩ := ih v hv
        exact ⟨p, h1, h2, hmono p h3⟩
      · simp at hv; subst hv
        obtain ⟨p, h1, h2, h3⟩ := ih s.sid hs.1
        refine ⟨p ++ [s.tid], ?_, by simp, ?_⟩
        · rw [List.head?_append, h1]; rfl
        · rw [List.isChain_append]
          refine ⟨hmono p h3, by simp, ?_⟩
          intro x hx y hy
          rw [h2] at hx
          simp at hx hy
          subst hx; subst hy
          exact ⟨s, by simp, hc, rfl, rfl⟩

end Gamma
