import Verif.Proofs.TraversalLeft
/-
`components` on any implementation of `Graph`.
-/
namespace Gamma

theorem exists_first_dup {α : Type} (l : List α) (h : ¬ l.Nodup) :
    ∃ pre s post, l = pre ++ s :: post ∧ pre.Nodup ∧ s ∈ pre := by
  induction l using List.reverseRecOn with
  | nil => exact absurd List.nodup_nil h
  | append_singleton l s ih =>
    by_cases h' : l.Nodup
    · refine ⟨l, s, [], rfl, h', ?_⟩
      by_contra hc
      apply h
      rw [List.nodup_append]
      refine ⟨h', by simp, ?_⟩
      intro a ha b hb
      simp at hb; subst hb
      rintro rfl; exact hc ha
    · obtain ⟨pre, t, post, rfl, h1, h2⟩ := ih h'
      exact ⟨pre, t, post ++ [s], by simp, h1, h2⟩

namespace DefaultGraph
open DepthFirst

theorem jc_le_of_nodup {l : List (Nat × Nat)} (hnd : l.Nodup) (how : ∀ u v, u ≠ v → ¬ ((u, v) ∈ l ∧ (v, u) ∈ l)) {u v : Nat}
    (hne : u ≠ v) : jc u v l ≤ 1 := by
  have h1 := List.nodup_iff_count_le_one.1 hnd (u, v)
  have h2 := List.nodup_iff_count_le_one.1 hnd (v, u)
  unfold jc
  by_cases hm : (u, v) ∈ l
  · rw [List.count_eq_zero.2 (fun hc => how u v hne ⟨hm, hc⟩)]; omega
  · rw [List.count_eq_zero.2 hm]; omega

theorem dfs_fold_dup {root : Nat} {st : List Step} (h : Truthful root st)
    (how : ∀ u v, u ≠ v → ¬ ((u, v) ∈ st.map Step.pair ∧ (v, u) ∈ st.map Step.pair)) (hdup : ¬ (st.map Step.pair).Nodup) :
    ∃ e, st.foldlM tryFromDfsStep .new = .err e := by
  obtain ⟨pre', s', post', e', h1, h2⟩ := exists_first_dup _ hdup
  obtain ⟨pre, rest, rfl, rfl, h3⟩ := List.map_eq_append_iff.1 e'
  obtain ⟨s, post, rfl, rfl, rfl⟩ := List.map_eq_cons_iff.1 h3
  have htr : Truthful root pre := fun p x q e' => h p x (q ++ s :: post) (by rw [e']; simp)
  have how' : ∀ u v, u ≠ v → ¬ ((u, v) ∈ pre.map Step.pair ∧ (v, u) ∈ pre.map Step.pair) := by
    intro u v hne ⟨a, b⟩
    exact how u v hne ⟨by rw [List.map_append]; exact List.mem_append_left _ a, by rw [List.map_append]; exact List.mem_append_left _ b⟩
  obtain ⟨r, q1, q2, q3, q4⟩ := dfs_fold htr (fun u v hne => jc_le_of_nodup h1 how' hne)
    (fun v => List.nodup_iff_count_le_one.1 h1 (v, v))
  have hne : pre ≠ [] := by rintro rfl; simp at h2
  have hn : r.nodes = discovered root pre := by rw [q3]; simp [seen, hne]
  have ht := h pre s post rfl
  have hm : s.sid ∈ r.nodes := by rw [hn]; exact ht.1
  have hm2 : s.tid ∈ r.nodes := by
    obtain ⟨t, ht1, ht2⟩ := List.mem_map.1 h2
    have : s.tid = t.tid := (congrArg Prod.snd ht2).symm
    rw [hn, this]; exact htr.tid_mem ht1
  have hc : s.cut = true := by rw [ht.2]; rw [hn] at hm2; exact hm2
  have hE : r.isEmpty = false := by simp [DefaultGraph.isEmpty, hn, discovered]
  have ha : r.toI.Adj s.sid s.tid := by
    rw [q2.2.2.2.adj_iff_same q2.1 q2.2.1, q4]
    exact ⟨s.pair, h2, .inl ⟨rfl, rfl⟩⟩
  refine ⟨.duplicateEdge s.sid s.tid, ?_⟩
  rw [List.foldlM_append, q1, Out.ok_bind, List.foldlM_cons]
  have : tryFromDfsStep r s = .err (.duplicateEdge s.sid s.tid) := by
    unfold tryFromDfsStep
    rw [hE, hc]
    simp only [Bool.false_eq_true, if_false, Out.ok_bind, Bool.not_true]
    rw [addEdgeQ_dup q2.1 hm hm2 ha]
  rw [this]; rfl

end DefaultGraph

namespace Components

variable {g : GraphI}

theorem nextLeft_any (hn : ∀ v, (∃ l, g.neighbors v = .ok l) ∨ ∃ e, g.neighbors v = .err e) {root : Nat} {L : List Nat}
    (hL : ∀ v, g.LeadsTo root v → v ∈ L) :
    ∃ o K, Outcome g root o ∧ ∀ c rest, findRoot c.visited c.iter = (some root, rest) →
      ∃ vis, (∀ fuel, K ≤ fuel → nextLeft g fuel c = ({ visited := vis, iter := rest }, o >>= fun a => .ok (some a))) ∧
        ∀ x, x ∈ vis ↔ x ∈ c.visited ∨ x = root ∨ InGraph o x := by
  have plain : ∀ (m : String) (c : Components) (x : Nat), x ∈ root :: c.visited ↔
      x ∈ c.visited ∨ x = root ∨ InGraph (.panic m : Out DefaultGraph) x := by
    intro m c x
    simp [InGraph, or_comm]
  rcases hn root with ⟨l, hl⟩ | ⟨e, he⟩
  swap
  · refine ⟨.panic "root not found", 0, .noRoot e he, fun c rest hf => ⟨root :: c.visited, fun fuel _ => ?_, plain _ c⟩⟩
    simp [nextLeft, hf, DepthFirst.new, he]
  obtain ⟨d, hd⟩ : ∃ d, DepthFirst.new g root = .ok d := by simp [DepthFirst.new, hl]
  obtain ⟨st, d', t, hW, hend⟩ := DepthFirst.run_or hd hL
  have ho := DepthFirst.Begins.oneWay hd t
  have how : ∀ u v, u ≠ v → ¬ ((u, v) ∈ st.map Step.pair ∧ (v, u) ∈ st.map Step.pair) := fun u v hne ⟨a, b⟩ =>
    ho u v hne ⟨List.mem_append_left _ a, List.mem_append_left _ b⟩
  have hend' : DepthFirst.next g d' = .ok (none, d') ∨ DepthFirst.next g d' = .panic "unwrap" := by
    rcases hend with h | h
    · exact .inl h
    · obtain ⟨n, -, -, h3, h4⟩ := hW.stuck h
      obtain ⟨e, he⟩ := (hn n).resolve_left (fun ⟨l, hl⟩ => h3 l hl)
      exact .inr (h4 e he)
  have hrun : DepthFirst.next g d' = .ok (none, d') → DepthFirst.Run g root st := fun h => ⟨d, hd, endsAfter_of_trace t h⟩
  have hpan : DepthFirst.next g d' = .panic "unwrap" → DepthFirst.PanicsAfter g root st "unwrap" := fun h =>
    ⟨⟨d, hd, calls_trace t⟩, d, hd, calls_trace_fail t h⟩
  by_cases hdup : (st.map Step.pair).Nodup
  swap
  · obtain ⟨e, he⟩ := DefaultGraph.dfs_fold_dup hW.truth how hdup
    refine ⟨.panic "traversal error", st.length + 1, .twice st (hend'.imp hrun hpan) hdup,
      fun c rest hf => ⟨root :: c.visited, fun fuel hfu => ?_, plain _ c⟩⟩
    have : DefaultGraph.tryFromDfs g fuel d = .err e := by
      unfold DefaultGraph.tryFromDfs
      rcases hend' with h | h
      · rw [forLoop_of_trace _ t h fuel (by omega), he]
      · rw [forLoop_of_trace_panic _ t h fuel (by omega), he]; rfl
    simp [nextLeft, hf, hd, this]
  obtain ⟨r, r0, r1, r2, r3⟩ := DefaultGraph.dfs_fold hW.truth (fun u v hne => DefaultGraph.jc_le_of_nodup hdup how hne)
    (fun v => List.nodup_iff_count_le_one.1 hdup (v, v))
  rcases hend' with h | h
  swap
  · refine ⟨.panic "unwrap", st.length + 1, .mute st (hpan h) hdup, fun c rest hf => ⟨root :: c.visited, fun fuel hfu => ?_, plain _ c⟩⟩
    have : DefaultGraph.tryFromDfs g fuel d = .panic "unwrap" := by
      unfold DefaultGraph.tryFromDfs
      rw [forLoop_of_trace_panic _ t h fuel (by omega), r0]; rfl
    simp [nextLeft, hf, hd, this, Out.expect]
  have key : ∀ fuel, st.length + 1 ≤ fuel → DefaultGraph.tryFromDfs g fuel d = .ok r := by
    intro fuel hfu
    unfold DefaultGraph.tryFromDfs
    rw [forLoop_of_trace _ t h fuel (by omega), r0]
  have hrn := DefaultGraph.reachable_tryFromDfs g _ d r (key _ (le_refl _))
  have hst := hrun h
  by_cases hs : st = []
  · subst hs
    have r2' : r.nodes = [] := by rw [r2]; simp [DepthFirst.seen]
    have r3' : r.edges = [] := by rw [r3]; simp
    have hE : r.isEmpty = true := by
      rw [(C03_counts r hrn.reachable).2.2.1, r2']
    have hno : r.hasNode root = false := by
      have := ((C03_counts r hrn.reachable).2.2.2.2.1 root).not
      rw [r2'] at this
      simpa using this
    obtain ⟨c1, c2, c3, c4⟩ := (C01_add_node r hrn.reachable root).2 hno
    have q : r.addNodeQ root = .ok (r.addNode root).1 := by
      simp [DefaultGraph.addNodeQ, c1]
    refine ⟨.ok (r.addNode root).1, ([] : List Step).length + 1, .found [] _ hst hdup (.addNode _ _ hrn) ?_ ?_ ?_,
      fun c rest hf => ⟨root :: c.visited, fun fuel hfu => ?_, ?_⟩⟩
    · rw [c2, r2']; simp [discovered]
    · rw [c3, r3']; simp
    · intro v hv
      rw [c2, r2'] at hv
      simp at hv
      subst hv
      simpa [incident] using c4.1
    · simp only [nextLeft, hf, hd, Out.expect_ok, Out.ok_bind, key fuel hfu, hE, if_true, q]
    · intro x
      have : InGraph (.ok (r.addNode root).1) x ↔ x = root := by simp [InGraph, c2, r2']
      rw [this]; simp [or_comm]
  · have r2' : r.nodes = discovered root st := by rw [r2]; simp [DepthFirst.seen, hs]
    have hE : r.isEmpty = false := by
      rw [← Bool.not_eq_true, (C03_counts r hrn.reachable).2.2.1, r2']; simp [discovered]
    refine ⟨.ok r, st.length + 1, .found st r hst hdup hrn r2' r3 (fun v hv => by rw [r1.2.2.1 v hv, r3]; rfl),
      fun c rest hf => ⟨r.nodes.reverse ++ (root :: c.visited), fun fuel hfu => ?_, ?_⟩⟩
    · simp [nextLeft, hf, hd, key fuel hfu, hE]
    · intro x
      have : InGraph (.ok r) x ↔ x ∈ r.nodes := by simp [InGraph]
      rw [this]
      simp only [List.mem_append, List.mem_reverse, List.mem_cons]
      tauto

/-- The rest of the calls. -/
theorem endsCaught_any (hn : ∀ v, (∃ l, g.neighbors v = .ok l) ∨ ∃ e, g.neighbors v = .err e)
    (c : Components) (hfin : ∀ r ∈ c.iter, ∃ L : List Nat, ∀ v, g.LeadsTo r v → v ∈ L) :
    ∃ (items : List (Nat × Out DefaultGraph)) (N : Nat),
      (∀ fuel, N ≤ fuel → EndsCaught (nextLeft g fuel) c (items.map Prod.snd)) ∧
      (items.map Prod.fst).Sublist c.iter ∧ (∀ e ∈ items, Outcome g e.1 e.2) ∧
      (∀ x ∈ c.iter, x ∈ c.visited ∨ ∃ e ∈ items, x = e.1 ∨ InGraph e.2 x) ∧
      (∀ e ∈ items, e.1 ∉ c.visited) ∧
      items.Pairwise (fun a b => a.1 ≠ b.1 ∧ ¬ InGraph a.2 b.1) := by
  induction hm : c.iter.length using Nat.strong_induction_on generalizing c with
  | _ m ih =>
    subst hm
    cases hf : findRoot c.visited c.iter with
    | mk o rest =>
      cases o with
      | none =>
        obtain ⟨rfl, h2⟩ := findRoot_none hf
        refine ⟨[], 0, fun fuel _ => ?_, by simp, by simp, fun x hx => .inl (h2 x hx), by simp, by simp⟩
        refine endsCaught_nil (s' := { c with iter := [] }) ?_ ?_
        · simp [nextLeft, hf]
        · simp [nextLeft, findRoot]
      | some root =>
        obtain ⟨skip, e, h1, h2⟩ := findRoot_some hf
        obtain ⟨L, hL⟩ := hfin root (by rw [e]; simp)
        obtain ⟨o, K, k0, k1⟩ := nextLeft_any hn hL
        obtain ⟨vis, k2, k3⟩ := k1 c rest hf
        obtain ⟨items, N, i1, i2, i3, i4, i5, i6⟩ := ih rest.length (by rw [e]; simp; omega) { visited := vis, iter := rest }
          (fun r hr => hfin r (by rw [e]; simp only at hr; simp [hr])) rfl
        simp only at i2 i4 i5
        refine ⟨(root, o) :: items, max K N, fun fuel hfu => ?_, ?_, ?_, ?_, ?_, ?_⟩
        · exact endsCaught_cons (k2 fuel (by omega)) (i1 fuel (by omega))
        · rw [e]
          exact ((List.Sublist.refl [root]).append i2).trans (List.sublist_append_right skip _)
        · intro a ha
          rcases List.mem_cons.1 ha with rfl | ha
          · exact k0
          · exact i3 a ha
        · intro x hx
          rw [e] at hx
          simp only [List.mem_append, List.mem_cons] at hx
          rcases hx with hx | rfl | hx
          · exact .inl (h1 x hx)
          · exact .inr ⟨(x, o), by simp, .inl rfl⟩
          · rcases i4 x hx with h | ⟨a, ha, h⟩
            · rcases (k3 x).1 h with h | h | h
              · exact .inl h
              · exact .inr ⟨(root, o), by simp, .inl h⟩
              · exact .inr ⟨(root, o), by simp, .inr h⟩
            · exact .inr ⟨a, List.mem_cons_of_mem _ ha, h⟩
        · intro a ha
          rcases List.mem_cons.1 ha with rfl | ha
          · exact h2
          · intro hc
            exact i5 a ha ((k3 _).2 (.inl hc))
        · rw [List.pairwise_cons]
          refine ⟨fun a ha => ⟨fun hc => i5 a ha ((k3 _).2 (.inr (.inl hc.symm))), fun hc => i5 a ha ((k3 _).2 (.inr (.inr hc)))⟩, i6⟩

end Components

theorem calls_panic_of_caught {σ α : Type} {next : σ → Out (Option α × σ)} {nextLeft : σ → σ × Out (Option α)}
    (h : ∀ s, next s = ((nextLeft s).2 >>= fun o => .ok (o, (nextLeft s).1))) (os : List (Option α)) (m : String) (s : σ)
    (hc : callsCaught nextLeft (os.length + 1) s = os.map .ok ++ [.panic m]) :
    calls next os.length s = .ok os ∧ calls next (os.length + 1) s = .panic m := by
  induction os generalizing s with
  | nil =>
    simp [callsCaught] at hc
    simp [calls, h s, hc]
  | cons o os ih =>
    simp only [callsCaught, List.length_cons, List.map_cons, List.cons_append, List.cons.injEq] at hc
    have := ih (nextLeft s).1 hc.2
    constructor
    · simp [calls, h s, hc.1, this.1]
    · rw [List.length_cons, calls, h s, hc.1, Out.ok_bind, Out.ok_bind, this.2]; rfl

end Gamma
