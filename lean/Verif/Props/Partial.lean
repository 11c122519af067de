import Verif.Proofs.Partial
/-
Property C56: converting a depth-first traversal that has already been advanced.
-/
namespace Gamma

/-- **C56, table.**  After `k` calls of `next`, `into_table` lists the steps that are left, in order, and the nodes they
discover, in order, after the source of the first of them. -/
theorem C56_into_table_rest (g : GraphI) (hg : g.Lawful) (root : Nat) (steps : List Step) (h : DepthFirst.Run g root steps)
    (d : DepthFirst) (hd : DepthFirst.new g root = .ok d) (k : Nat) :
    ∃ d', afterCalls (DepthFirst.next g) k d = .ok d' ∧ ∀ fuel, (steps.drop k).length < fuel →
      DepthFirst.intoTable g fuel d' =
        .ok (match (steps.drop k).head? with
            | none => []
            | some s => discovered s.sid (steps.drop k), (steps.drop k).map (fun s => (s.sid, s.tid))) := by
  obtain ⟨hr, d0, dl, e, t, he, -, -⟩ := h.inv hg
  rw [hd] at e; injection e with e; subst e
  obtain ⟨d', h1, h2⟩ := afterCalls_trace t he k
  refine ⟨d', h1, fun fuel hf => ?_⟩
  unfold DepthFirst.intoTable
  rw [forLoop_of_trace _ h2 he fuel hf]
  cases hrest : steps.drop k with
  | nil => rfl
  | cons s st => rw [DepthFirst.table_fold_first]; rfl

/-- **C56, graph, success.**  After `k` calls of `next`, `DefaultGraph::try_from` is `Ok` if every step that is left is
grounded: its source, and its target if it is a cut, is the source of the first step left or is discovered by a step left.
The result has exactly these nodes and edges; with no step left it is empty. -/
theorem C56_try_from_rest (g : GraphI) (hg : g.Lawful) (hl : g.NoDoubleLoop) (root : Nat) (steps : List Step)
    (h : DepthFirst.Run g root steps) (d : DepthFirst) (hd : DepthFirst.new g root = .ok d) (k : Nat) :
    ∃ d', afterCalls (DepthFirst.next g) k d = .ok d' ∧
    (steps.drop k = [] → ∀ fuel, 0 < fuel → DefaultGraph.tryFromDfs g fuel d' = .ok .new) ∧
    (∀ s rest, steps.drop k = s :: rest →
      (∀ pre t post, s :: rest = pre ++ t :: post → t.Grounded s.sid pre) →
      ∃ r : DefaultGraph, r.ReachableNoAdjLoop ∧ r.nodes = discovered s.sid (s :: rest) ∧
        r.edges = (s :: rest).map (fun s => (s.sid, s.tid)) ∧
        (∀ v ∈ r.nodes, r.neighbors v = .ok (incident v ((s :: rest).map (fun s => (s.sid, s.tid))))) ∧
        ∀ fuel, (s :: rest).length < fuel → DefaultGraph.tryFromDfs g fuel d' = .ok r) := by
  obtain ⟨hr, d0, dl, e, t, he, i, -⟩ := h.inv hg
  rw [hd] at e; injection e with e; subst e
  obtain ⟨d', h1, h2⟩ := afterCalls_trace t he k
  refine ⟨d', h1, fun h0 fuel hf => ?_, fun s rest hs hgr => ?_⟩
  · rw [h0] at h2
    unfold DefaultGraph.tryFromDfs
    rw [forLoop_of_trace _ h2 he fuel (by simpa using hf)]
    rfl
  · rw [hs] at h2
    have hsplit : steps = steps.take k ++ (s :: rest) := by rw [← hs, List.take_append_drop]
    have hsub : (s :: rest).Sublist steps := hs ▸ List.drop_sublist k steps
    have hsid : s.sid ∈ discovered root (steps.take k) := (i.truth (steps.take k) s rest hsplit).1
    have htr : Truthful root (steps.take k ++ (s :: rest)) := by rw [← hsplit]; exact i.truth
    have htruth := htr.rest hsid hgr
    obtain ⟨r, q1, q2, q3, q4⟩ := DefaultGraph.dfs_fold htruth
      (fun u v hne => by
        have := i.once u v hne
        have := DepthFirst.jc_sublist (u := u) (v := v) (hsub.map Step.pair)
        omega)
      (fun v => by
        have := i.onceLoop v (hl v)
        have := (hsub.map Step.pair).count_le (v, v)
        omega)
    have key : ∀ fuel, (s :: rest).length < fuel → DefaultGraph.tryFromDfs g fuel d' = .ok r := by
      intro fuel hf
      unfold DefaultGraph.tryFromDfs
      rw [forLoop_of_trace _ h2 he fuel hf, q1]
    refine ⟨r, DefaultGraph.reachable_tryFromDfs g _ d' r (key ((s :: rest).length + 1) (by omega)), ?_, q4, ?_, key⟩
    · rw [q3]; rfl
    · intro v hv
      rw [q2.2.2.1 v hv, q4]
      rfl

/-- **C56, graph, failure.**  If `t` is the first step left that is not grounded, the conversion is refused with
`MissingNode`: of the source of `t` if that is missing, and of its target otherwise. -/
theorem C56_try_from_rest_fails (g : GraphI) (hg : g.Lawful) (hl : g.NoDoubleLoop) (root : Nat) (steps : List Step)
    (h : DepthFirst.Run g root steps) (d : DepthFirst) (hd : DepthFirst.new g root = .ok d) (k : Nat)
    (first : Nat) (hfirst : (steps.drop k).head?.map Step.sid = some first)
    (pre : List Step) (t : Step) (post : List Step) (he : steps.drop k = pre ++ t :: post)
    (hpre : ∀ p x q, pre = p ++ x :: q → x.Grounded first p) (hbad : ¬ t.Grounded first pre) :
    ∃ d', afterCalls (DepthFirst.next g) k d = .ok d' ∧ ∀ fuel, (steps.drop k).length < fuel →
      DefaultGraph.tryFromDfs g fuel d' =
        .err (.missingNode (if t.sid ∈ discovered first pre then t.tid else t.sid)) := by
  obtain ⟨hr, d0, dl, e, tr, hend, i, -⟩ := h.inv hg
  rw [hd] at e; injection e with e; subst e
  obtain ⟨d', h1, h2⟩ := afterCalls_trace tr hend k
  refine ⟨d', h1, fun fuel hf => ?_⟩
  have hsplit : steps = (steps.take k ++ pre) ++ t :: post := by
    rw [List.append_assoc, ← he, List.take_append_drop]
  have hsub : pre.Sublist steps := by
    have : pre.Sublist (steps.drop k) := by rw [he]; simp
    exact this.trans (List.drop_sublist k steps)
  have hf0 : first ∈ discovered root (steps.take k) := by
    rcases hrest : steps.drop k with - | ⟨s, rest⟩
    · rw [hrest] at hfirst; simp at hfirst
    · rw [hrest] at hfirst
      simp at hfirst
      subst hfirst
      exact (i.truth (steps.take k) s rest (by rw [← hrest, List.take_append_drop])).1
  have htr : Truthful root (steps.take k ++ pre) := by
    intro p x q e'
    exact i.truth p x (q ++ t :: post) (by rw [hsplit, e']; simp)
  have htp := htr.rest hf0 hpre
  have ht := i.truth _ t post hsplit
  have hincl : ∀ v ∈ discovered first pre, v ∈ discovered root (steps.take k ++ pre) := by
    intro v hv
    rcases mem_discovered.1 hv with e | ⟨s, hs, hc, e⟩
    · rw [e]; exact discovered_mono hf0
    · exact mem_discovered.2 (.inr ⟨s, by simp [hs], hc, e⟩)
  have hstop := DefaultGraph.dfs_fold_stops htp
    (fun u v hne => by
      have := i.once u v hne
      have := DepthFirst.jc_sublist (u := u) (v := v) (hsub.map Step.pair)
      omega)
    (fun v => by
      have := i.onceLoop v (hl v)
      have := (hsub.map Step.pair).count_le (v, v)
      omega)
    (fun hp => by rw [he, hp] at hfirst; simpa using hfirst)
    (fun hc hm => by have := ht.2.2 (hincl _ hm); rw [hc] at this; simp at this)
    hbad (fun hc => (i.truth.ne (by rw [hsplit]; simp) hc).symm)
  unfold DefaultGraph.tryFromDfs
  rw [forLoop_of_trace _ h2 hend fuel hf, he, show pre ++ t :: post = (pre ++ [t]) ++ post by simp, foldlM_append_out,
    hstop]
  rfl

/-- On the path 0-1-2-3 traversed from 1: 1→2, 2→3, 1→0.  After one call the last step is not grounded (its source 1 was
consumed), and the conversion is refused; after two calls one step is left, and it is fine. -/
example : DepthFirst.Run pathG.toI 1 [⟨1, 2, false⟩, ⟨2, 3, false⟩, ⟨1, 0, false⟩] ∧
    ¬ (⟨1, 0, false⟩ : Step).Grounded 2 [⟨2, 3, false⟩] ∧ (⟨2, 3, false⟩ : Step).Grounded 2 [] ∧
    (⟨1, 0, false⟩ : Step).Grounded 1 [] := by
  refine ⟨pathG_dfs, ?_, ?_, ?_⟩ <;> unfold Step.Grounded <;> decide

/-- The same, run: `MissingNode(1)`. -/
example : ∃ d d', DepthFirst.new pathG.toI 1 = .ok d ∧ afterCalls (DepthFirst.next pathG.toI) 1 d = .ok d' ∧
    DefaultGraph.tryFromDfs pathG.toI 10 d' = .err (.missingNode 1) :=
  ⟨_, ⟨[2, 1], [(2, 3), (1, 0)]⟩, rfl, by decide +kernel, by decide +kernel⟩

end Gamma
