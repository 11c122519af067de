import Verif.Props.Count
import Verif.Proofs.Partial
/-
Property C73: comparing depth-first traversals with `==`.
-/
namespace Gamma

/-! ### C73 -/

theorem afterCalls_split {σ α : Type} {next : σ → Out (Option α × σ)} {s s' : σ} {l : List α} (t : Trace next s l s')
    (he : next s' = .ok (none, s')) (n : Nat) :
    ∃ m, afterCalls next n s = .ok m ∧ Trace next s (l.take n) m ∧ Trace next m (l.drop n) s' := by
  induction t generalizing n with
  | nil s => exact ⟨s, afterCalls_stuck he n, by simpa using Trace.nil s, by simpa using Trace.nil s⟩
  | cons s s1 s2 a l hn t ih =>
    cases n with
    | zero => exact ⟨s, rfl, .nil _, .cons _ _ _ _ _ hn t⟩
    | succ n =>
      obtain ⟨m, h1, h2, h3⟩ := ih he n
      exact ⟨m, by simp [afterCalls, hn, h1], by simpa using Trace.cons _ _ _ _ _ hn h2, by simpa using h3⟩

/-- The visited nodes are those discovered so far. -/
theorem DepthFirst.trace_nodes {g : GraphI} {d d' : DepthFirst} {l : List Step} (t : Trace (DepthFirst.next g) d l d')
    (hn : d.nodes.Nodup) :
    d'.nodes.Nodup ∧ ∀ v, v ∈ d'.nodes ↔ v ∈ d.nodes ∨ v ∈ (l.filter (fun s => !s.cut)).map Step.tid := by
  induction t with
  | nil s => exact ⟨hn, by simp⟩
  | cons s s1 s2 a l hx t ih =>
    have key : s1.nodes.Nodup ∧ ∀ v, v ∈ s1.nodes ↔ v ∈ s.nodes ∨ (a.cut = false ∧ v = a.tid) := by
      unfold DepthFirst.next at hx
      split at hx
      · simp at hx
      · rename_i parent node rest hs
        split at hx
        · simp only [Out.ok.injEq, Prod.mk.injEq, Option.some.injEq] at hx
          obtain ⟨rfl, rfl⟩ := hx
          exact ⟨hn, by simp⟩
        · rename_i hc
          obtain ⟨ns, -, hx⟩ := Out.bind_eq_ok.1 hx
          simp only [Out.ok.injEq, Prod.mk.injEq, Option.some.injEq] at hx
          obtain ⟨rfl, rfl⟩ := hx
          refine ⟨List.nodup_cons.2 ⟨by simpa using hc, hn⟩, fun v => ?_⟩
          simp [or_comm]
    obtain ⟨h1, h2⟩ := ih key.1
    refine ⟨h1, fun v => ?_⟩
    rw [h2, key.2]
    cases hc : a.cut <;> simp [hc, or_assoc]

theorem DepthFirst.eq_true_iff {d e : DepthFirst} {b : Bool} (hd : d.nodes.Nodup) (he : e.nodes.Nodup) :
    ∃ r, DepthFirst.eq (.ok b) d e = .ok r ∧
      (r = true ↔ (∀ v, v ∈ d.nodes ↔ v ∈ e.nodes) ∧ d.stack = e.stack ∧ b = true) := by
  have hset : (d.nodes.length == e.nodes.length && d.nodes.all (fun v => e.nodes.contains v)) = true ↔
      ∀ v, v ∈ d.nodes ↔ v ∈ e.nodes := by
    rw [Bool.and_eq_true, beq_iff_eq, List.all_eq_true]
    constructor
    · rintro ⟨h1, h2⟩ v
      have hsub : d.nodes ⊆ e.nodes := fun x hx => List.contains_iff_mem.1 (h2 x hx)
      have hp : d.nodes.Perm e.nodes := (hd.subperm hsub).perm_of_length_le (by omega)
      exact hp.mem_iff
    · intro h
      have hp : d.nodes.Perm e.nodes := (List.perm_ext_iff_of_nodup hd he).2 h
      exact ⟨hp.length_eq, fun x hx => List.contains_iff_mem.2 ((h x).1 hx)⟩
  unfold DepthFirst.eq
  by_cases h1 : (d.nodes.length == e.nodes.length && d.nodes.all (fun v => e.nodes.contains v)) = true
  · by_cases h2 : d.stack = e.stack
    · refine ⟨b, by rw [h1, h2]; simp, ?_⟩
      exact ⟨fun h => ⟨hset.1 h1, h2, h⟩, fun h => h.2.2⟩
    · refine ⟨false, by rw [h1]; simp [h2], ?_⟩
      exact ⟨fun h => by simp at h, fun h => absurd h.2.1 h2⟩
  · refine ⟨false, by rw [Bool.not_eq_true] at h1; rw [h1]; rfl, ?_⟩
    exact ⟨fun h => by simp at h, fun h => absurd (hset.2 h.1) h1⟩

/-- Traversals with the same visited nodes and the same stack take the same step. -/
theorem DepthFirst.next_same {g : GraphI} {d e : DepthFirst} (hn : ∀ v, v ∈ d.nodes ↔ v ∈ e.nodes) (hs : d.stack = e.stack) :
    (∃ o d1 e1, DepthFirst.next g d = .ok (o, d1) ∧ DepthFirst.next g e = .ok (o, e1) ∧ (∀ v, v ∈ d1.nodes ↔ v ∈ e1.nodes) ∧
      d1.stack = e1.stack) ∨
    (DepthFirst.next g d = DepthFirst.next g e ∧ ∀ x, DepthFirst.next g d ≠ .ok x) := by
  have hc : ∀ v, d.nodes.contains v = e.nodes.contains v := by
    intro v; rw [Bool.eq_iff_iff, List.contains_iff_mem, List.contains_iff_mem]; exact hn v
  have hp : ∀ p v, DepthFirst.pushNeighbor d.nodes p v = DepthFirst.pushNeighbor e.nodes p v := by
    intro p v; funext st nb; unfold DepthFirst.pushNeighbor; rw [hc]
  unfold DepthFirst.next
  rw [← hs]
  cases hst : d.stack with
  | nil => exact .inl ⟨none, d, e, rfl, rfl, hn, hs⟩
  | cons x rest =>
    obtain ⟨p, v⟩ := x
    simp only [hc v]
    by_cases hv : e.nodes.contains v = true
    · simp only [hv, if_true]
      exact .inl ⟨_, _, _, rfl, rfl, hn, rfl⟩
    · simp only [hv, Bool.false_eq_true, if_false]
      cases hx : (g.neighbors v).expect "unwrap" with
      | ok ns => exact .inl ⟨_, _, _, rfl, rfl, fun w => by simp [hn w], by simp only [hp]⟩
      | err e => exact .inr ⟨rfl, fun x h => by cases h⟩
      | panic m => exact .inr ⟨rfl, fun x h => by cases h⟩
      | timeout => exact .inr ⟨rfl, fun x h => by cases h⟩

theorem DepthFirst.calls_same {g : GraphI} (n : Nat) : ∀ {d e : DepthFirst}, (∀ v, v ∈ d.nodes ↔ v ∈ e.nodes) →
    d.stack = e.stack → calls (DepthFirst.next g) n d = calls (DepthFirst.next g) n e := by
  induction n with
  | zero => intros; rfl
  | succ n ih =>
    intro d e hn hs
    unfold calls
    rcases DepthFirst.next_same (g := g) hn hs with ⟨o, d1, e1, h1, h2, h3, h4⟩ | ⟨h1, h2⟩
    · rw [h1, h2]
      show (calls _ n d1 >>= _) = (calls _ n e1 >>= _)
      rw [ih h3 h4]
    · rw [h1]

theorem DepthFirst.after_spec {g : GraphI} (hg : g.Lawful) {r j : Nat} {st : List Step} {a : DepthFirst}
    (h : DepthFirst.Run g r st) (ha : DepthFirst.After g r j a) :
    a.nodes.Nodup ∧ (∀ v, v ∈ a.nodes ↔ v ∈ discovered r (st.take j)) ∧ EndsAfter (DepthFirst.next g) a (st.drop j) ∧
      (st.drop j = [] → a.stack = []) ∧ (j = 0 → a = ⟨[r], (g.nbr r).map (fun n => (r, n))⟩) := by
  obtain ⟨hr, d, d', e, t, he, -, hs⟩ := h.inv hg
  obtain ⟨d0, e0, e1⟩ := ha
  rw [e] at e0; injection e0 with e0; subst e0
  obtain ⟨m, h1, h2, h3⟩ := afterCalls_split t he j
  rw [e1] at h1; injection h1 with h1; subst h1
  rw [DepthFirst.new_eq hg hr] at e; injection e with e; subst e
  obtain ⟨n1, n2⟩ := DepthFirst.trace_nodes h2 (by simp)
  refine ⟨n1, fun v => by rw [n2]; simp [discovered], endsAfter_of_trace h3 he, fun h0 => ?_, ?_⟩
  · rw [h0] at h3
    cases h3
    exact hs
  · rintro rfl
    rw [List.take_zero] at h2
    cases h2
    rfl

/-- **C73.** Comparing two depth-first traversals of one graph with `==` (`same` is the outcome of comparing the graph with
itself), however far they have been advanced, does not panic; and if they compare equal, so does the graph, they have discovered the same
nodes, and the steps still to come are the same. -/
theorem C73_equal_traversals (g : GraphI) (hg : g.Lawful) (same : Bool) (r s j k : Nat) (st st' : List Step)
    (h : DepthFirst.Run g r st) (h' : DepthFirst.Run g s st') (a b : DepthFirst) (ha : DepthFirst.After g r j a)
    (hb : DepthFirst.After g s k b) :
    ∃ answer, DepthFirst.eq (.ok same) a b = .ok answer ∧
      (answer = true → same = true ∧ (∀ v, v ∈ discovered r (st.take j) ↔ v ∈ discovered s (st'.take k)) ∧
        st.drop j = st'.drop k) := by
  obtain ⟨n1, m1, t1, -, -⟩ := DepthFirst.after_spec hg h ha
  obtain ⟨n2, m2, t2, -, -⟩ := DepthFirst.after_spec hg h' hb
  obtain ⟨answer, e, hi⟩ := DepthFirst.eq_true_iff (b := same) n1 n2
  refine ⟨answer, e, fun hc => ?_⟩
  obtain ⟨h1, h2, h3⟩ := hi.1 hc
  refine ⟨h3, fun v => by rw [← m1, ← m2, h1], ?_⟩
  refine endsAfter_unique t1 (fun n => ?_)
  rw [DepthFirst.calls_same n h1 h2]
  exact t2 n

/-- **C73, the two ends.**  Traversals of a graph that equals itself compare equal before their first step only if they start from
the same node (and a traversal equals itself); after their last, if and only if they have discovered the same nodes. -/
theorem C73_new_and_finished (g : GraphI) (hg : g.Lawful) (r s j k : Nat) (st st' : List Step)
    (h : DepthFirst.Run g r st) (h' : DepthFirst.Run g s st') (a b : DepthFirst) (ha : DepthFirst.After g r j a)
    (hb : DepthFirst.After g s k b) :
    (j = 0 → k = 0 → (DepthFirst.eq (.ok true) a b = .ok true ↔ r = s)) ∧
    (st.length ≤ j → st'.length ≤ k →
      (DepthFirst.eq (.ok true) a b = .ok true ↔ ∀ v, v ∈ discovered r st ↔ v ∈ discovered s st')) ∧
    (r = s → j = k → DepthFirst.eq (.ok true) a b = .ok true) := by
  obtain ⟨n1, m1, -, f1, g1⟩ := DepthFirst.after_spec hg h ha
  obtain ⟨n2, m2, -, f2, g2⟩ := DepthFirst.after_spec hg h' hb
  obtain ⟨answer, e, hi⟩ := DepthFirst.eq_true_iff (b := true) n1 n2
  rw [e]
  have hi' : (Out.ok answer = Out.ok true) ↔ (∀ v, v ∈ a.nodes ↔ v ∈ b.nodes) ∧ a.stack = b.stack := by
    rw [Out.ok.injEq, hi]; simp
  rw [hi']
  refine ⟨?_, ?_, ?_⟩
  · intro hj hk
    rw [g1 hj, g2 hk]
    constructor
    · rintro ⟨h1, -⟩
      simpa using (h1 r).1 (by simp)
    · rintro rfl; simp
  · intro hj hk
    have d1 : st.drop j = [] := List.drop_eq_nil_iff.2 hj
    have d2 : st'.drop k = [] := List.drop_eq_nil_iff.2 hk
    rw [f1 d1, f2 d2]
    rw [List.take_of_length_le hj] at m1
    rw [List.take_of_length_le hk] at m2
    simp only [m1, m2, and_true]
  · rintro rfl rfl
    obtain ⟨d0, e0, e1⟩ := ha
    obtain ⟨d0', e0', e1'⟩ := hb
    rw [e0] at e0'; injection e0' with e0'; subst e0'
    rw [e1] at e1'; injection e1' with e1'; subst e1'
    simp

/-- **C73, equal graphs are not enough.**  Traversals of two graphs that compare equal may compare equal although their next
steps differ: `==` on graphs ignores the order of neighbors. -/
theorem C73_equal_graphs_differ :
    ∃ (g h : DefaultGraph) (a b : DepthFirst) (st st' : List Step), g.ReachableNoAdjLoop ∧ h.ReachableNoAdjLoop ∧
      DepthFirst.After g.toI 5 0 a ∧ DepthFirst.After h.toI 5 0 b ∧ DepthFirst.eq (g.eq h) a b = .ok true ∧
      DepthFirst.Run g.toI 5 st ∧ DepthFirst.Run h.toI 5 st' ∧
      st = [⟨5, 0, false⟩, ⟨0, 1, false⟩, ⟨0, 2, false⟩] ∧ st' = [⟨5, 0, false⟩, ⟨0, 2, false⟩, ⟨0, 1, false⟩] := by
  refine ⟨[GraphOp.node 5, .node 0, .node 1, .node 2, .edge 5 0, .edge 0 1, .edge 0 2].foldl DefaultGraph.perform .new,
    [GraphOp.node 5, .node 0, .node 1, .node 2, .edge 5 0, .edge 0 2, .edge 0 1].foldl DefaultGraph.perform .new,
    ⟨[5], [(5, 0)]⟩, ⟨[5], [(5, 0)]⟩, _, _, ?_, ?_, ⟨_, by decide +kernel, rfl⟩, ⟨_, by decide +kernel, rfl⟩, by decide +kernel,
    DepthFirst.run_of_collect (fuel := 10) (by decide +kernel), DepthFirst.run_of_collect (fuel := 10) (by decide +kernel), rfl, rfl⟩
  all_goals
    simp only [List.foldl, DefaultGraph.perform]
    repeat (first | exact .new | apply DefaultGraph.ReachableNoAdjLoop.addNode | apply DefaultGraph.ReachableNoAdjLoop.addEdge)

/-- The hypotheses of C73 hold for traversals of a triangle with a tail: from 4, after two steps, and from 7, after two steps,
different stacks; and after all steps from 4 and from 9, which compare equal. -/
example : exG.toI.Lawful ∧ DepthFirst.Run exG.toI 4 exDfs ∧
    (∃ st', DepthFirst.Run exG.toI 9 st' ∧ st' ≠ exDfs ∧
      ∃ a b, DepthFirst.After exG.toI 4 6 a ∧ DepthFirst.After exG.toI 9 6 b ∧ DepthFirst.eq (exG.eq exG) a b = .ok true) ∧
    (∃ a b, DepthFirst.After exG.toI 4 2 a ∧ DepthFirst.After exG.toI 9 2 b ∧ DepthFirst.eq (exG.eq exG) a b = .ok false) := by
  refine ⟨exG_lawful, exG_dfs, ⟨[⟨9, 2, false⟩, ⟨2, 7, false⟩, ⟨7, 4, false⟩, ⟨4, 2, true⟩],
    DepthFirst.run_of_collect (fuel := 10) (by decide +kernel), by decide, ?_⟩, ?_⟩
  · refine ⟨⟨[9, 2, 7, 4], []⟩, ⟨[4, 7, 2, 9], []⟩, ⟨_, rfl, by decide +kernel⟩, ⟨_, rfl, by decide +kernel⟩, by decide +kernel⟩
  · refine ⟨_, _, ⟨_, rfl, rfl⟩, ⟨_, rfl, rfl⟩, by decide +kernel⟩

end Gamma
