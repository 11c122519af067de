import Verif.Props.Traversal
/-
Conversions of a depth-first traversal that has already been advanced.
-/
namespace Gamma

section iter
variable {σ α : Type} {next : σ → Out (Option α × σ)}

theorem afterCalls_stuck {s : σ} (h : next s = .ok (none, s)) (n : Nat) : afterCalls next n s = .ok s := by
  induction n with
  | zero => rfl
  | succ n ih => simp [afterCalls, h, ih]

/-- Advancing an iterator drops the first items of its trace. -/
theorem afterCalls_trace {s s' : σ} {l : List α} (t : Trace next s l s') (he : next s' = .ok (none, s')) (n : Nat) :
    ∃ m, afterCalls next n s = .ok m ∧ Trace next m (l.drop n) s' := by
  induction t generalizing n with
  | nil s => exact ⟨s, afterCalls_stuck he n, by simpa using Trace.nil s⟩
  | cons s s1 s2 a l hn t ih =>
    cases n with
    | zero => exact ⟨s, rfl, .cons _ _ _ _ _ hn t⟩
    | succ n =>
      obtain ⟨m, h1, h2⟩ := ih he n
      exact ⟨m, by simp [afterCalls, hn, h1], by simpa using h2⟩

end iter

namespace DepthFirst

theorem table_fold_first (s : Step) (st : List Step) :
    (s :: st).foldlM tableStep ([], []) = .ok (discovered s.sid (s :: st), (s :: st).map Step.pair) := by
  have : ∀ (post pre : List Step) , post.foldlM tableStep (discovered s.sid pre, pre.map Step.pair) =
      .ok (discovered s.sid (pre ++ post), (pre ++ post).map Step.pair) := by
    intro post
    induction post with
    | nil => intro pre; simp
    | cons t post ih =>
      intro pre
      rw [List.foldlM_cons]
      have e : tableStep (discovered s.sid pre, pre.map Step.pair) t =
          .ok (discovered s.sid (pre ++ [t]), (pre ++ [t]).map Step.pair) := by
        unfold tableStep
        cases hc : t.cut
        · rw [discovered_new _ _ _ hc]; simp [discovered, Step.pair]
        · rw [discovered_cut _ _ _ hc]; simp [discovered, Step.pair]
      rw [e, Out.ok_bind, ih]
      simp
  rw [List.foldlM_cons]
  have e : tableStep ([], []) s = .ok (discovered s.sid [s], [s].map Step.pair) := by
    unfold tableStep
    cases hc : s.cut <;> simp [discovered, Step.pair, hc]
  rw [e, Out.ok_bind, this]
  simp

end DepthFirst

/-- The nodes discovered in the rest of a traversal were undiscovered before, so the rest of a traversal is truthful as
soon as it is grounded. -/
theorem Truthful.rest {root : Nat} {done rest : List Step} (h : Truthful root (done ++ rest)) {first : Nat}
    (hf : first ∈ discovered root done)
    (hg : ∀ pre t post, rest = pre ++ t :: post → t.Grounded first pre) : Truthful first rest := by
  intro pre t post e
  refine ⟨(hg pre t post e).1, (hg pre t post e).2, fun hm => ?_⟩
  have := h (done ++ pre) t post (by rw [e]; simp)
  rw [this.2]
  rw [mem_discovered] at hm
  rcases hm with hm | ⟨s, hs, hc, hm⟩
  · rw [hm]; exact discovered_mono hf
  · exact mem_discovered.2 (.inr ⟨s, by simp [hs], hc, hm⟩)

namespace DefaultGraph
open DepthFirst

/-- The conversion stops at a step that is not grounded. -/
theorem dfs_fold_stops {pre : List Step} {t : Step} {first : Nat} (hpre : Truthful first pre)
    (honce : ∀ u v, u ≠ v → jc u v (pre.map Step.pair) ≤ 1) (hloop : ∀ v, (pre.map Step.pair).count (v, v) ≤ 1)
    (hfirst : pre = [] → t.sid = first) (hnew : t.cut = false → t.tid ∉ discovered first pre)
    (hbad : ¬ t.Grounded first pre) (hne : t.cut = false → t.tid ≠ t.sid) :
    (pre ++ [t]).foldlM tryFromDfsStep .new =
      .err (.missingNode (if t.sid ∈ discovered first pre then t.tid else t.sid)) := by
  obtain ⟨r, h1, h2, h3, -⟩ := dfs_fold hpre honce hloop
  have hop := opInv_and opInv_ordered opInv_edgeExact
  rw [foldlM_append_out, h1, Out.ok_bind, List.foldlM_cons]
  suffices h : tryFromDfsStep r t = .err (.missingNode (if t.sid ∈ discovered first pre then t.tid else t.sid)) by
    rw [h]; rfl
  obtain ⟨r1, e1, k1, n1⟩ : ∃ r1 : DefaultGraph,
      (if r.isEmpty then r.addNodeQ t.sid else .ok r) = .ok r1 ∧
      Good (fun g => Ordered g ∧ EdgeExact g) r1 ∧ r1.nodes = discovered first pre := by
    cases pre with
    | nil =>
      have hn : r.nodes = [] := by rw [h3]; rfl
      have hm : t.sid ∉ r.nodes := by rw [hn]; simp
      obtain ⟨r1, q1, q2, q3⟩ := addNodeQ_new h2.1 hm
      refine ⟨r1, ?_, h2.addNodeQ hop q1, ?_⟩
      · rw [← q1]; simp [DefaultGraph.isEmpty, hn]
      · rw [q3.nodes, hn, hfirst rfl]; rfl
    | cons a pre =>
      have hn : r.nodes = discovered first (a :: pre) := by rw [h3]; rfl
      refine ⟨r, ?_, h2, hn⟩
      simp [DefaultGraph.isEmpty, hn, discovered]
  obtain ⟨r2, e2, k2, n2⟩ : ∃ r2 : DefaultGraph,
      (if !t.cut then r1.addNodeQ t.tid else .ok r1) = .ok r2 ∧
      Good (fun g => Ordered g ∧ EdgeExact g) r2 ∧ r2.nodes = discovered first (pre ++ [t]) := by
    cases hc : t.cut with
    | true => exact ⟨r1, by simp, k1, by rw [discovered_cut _ _ _ hc]; exact n1⟩
    | false =>
      have hm : t.tid ∉ r1.nodes := by rw [n1]; exact hnew hc
      obtain ⟨r2, q1, q2, q3⟩ := addNodeQ_new k1.1 hm
      exact ⟨r2, by simpa using q1, k1.addNodeQ hop q1, by rw [q3.nodes, n1, discovered_new _ _ _ hc]⟩
  unfold tryFromDfsStep
  rw [e1, Out.ok_bind, e2, Out.ok_bind]
  unfold addEdgeQ
  by_cases hs : t.sid ∈ discovered first pre
  · rw [if_pos hs]
    have hcut : t.cut = true ∧ t.tid ∉ discovered first pre := by
      by_contra hcon
      apply hbad
      refine ⟨hs, fun hc => ?_⟩
      by_contra hm
      exact hcon ⟨hc, hm⟩
    have hn2 : r2.nodes = discovered first pre := by rw [n2, discovered_cut _ _ _ hcut.1]
    rw [k2.1.addEdge_missing_right (by rw [hn2]; exact hs) (by rw [hn2]; exact hcut.2)]
    rfl
  · rw [if_neg hs]
    have : t.sid ∉ r2.nodes := by
      rw [n2]
      cases hc : t.cut with
      | true => rw [discovered_cut _ _ _ hc]; exact hs
      | false =>
        rw [discovered_new _ _ _ hc, List.mem_append]
        rintro (h | h)
        · exact hs h
        · exact hne hc (List.mem_singleton.1 h).symm
    rw [k2.1.addEdge_missing_left this]
    rfl

end DefaultGraph
end Gamma
