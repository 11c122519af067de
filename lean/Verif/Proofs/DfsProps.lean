import Verif.Proofs.Dfs
import Verif.Proofs.GraphBuild
/-
Consequences of the depth-first invariant at the end of the run; conversion of a traversal.
-/
namespace Gamma
namespace DepthFirst
variable {g : GraphI} {root : Nat} {st : List Step} {d : DepthFirst}

theorem joinCount_eq_jc (u v : Nat) (hne : u ≠ v) (st : List Step) :
    joinCount u v st = jc u v (st.map Step.pair) := BreadthFirst.joinCount_eq u v hne st

/-- Where the traversal can be incomplete. -/
theorem Inv.incomplete (h : Inv g root st d) (hq : d.stack = []) {u v : Nat}
    (hu : u ∈ discovered root st) (ha : g.Adj u v) (hv : v ∉ discovered root st) :
    ∃ n ∈ discovered root st, n ≠ u ∧ g.Adj u n ∧ NonTree st u n := by
  rcases h.cover u hu v ha with h1 | h1 | h1
  · exact absurd h1 hv
  · rw [hq] at h1; simp at h1
  · exact h1

/-- In an acyclic graph every edge between discovered nodes is a discovery step. -/
theorem Inv.acyclic_tree (hg : g.Lawful) (h : Inv g root st d) (hac : g.simple.IsAcyclic) {u n : Nat}
    (hu : u ∈ discovered root st) (hn : n ∈ discovered root st) (hne : n ≠ u) (ha : g.Adj u n) :
    ¬ NonTree st u n := by
  intro hnt
  have hadj : g.simple.Adj u n := (hg.simple_adj).2 ⟨Ne.symm hne, ha⟩
  have hb := SimpleGraph.isAcyclic_iff_forall_adj_isBridge.1 hac hadj
  rw [SimpleGraph.isBridge_iff] at hb
  apply hb
  have key := h.truth.reachable_in (g.simple \ SimpleGraph.fromEdgeSet {s(u, n)}) (by
    intro s hs hc
    rw [SimpleGraph.sdiff_adj]
    refine ⟨(hg.simple_adj).2 ⟨h.truth.ne hs hc, h.step_adj s hs⟩, ?_⟩
    rw [SimpleGraph.fromEdgeSet_adj]
    rintro ⟨h1, -⟩
    have h1 : s(s.sid, s.tid) = s(u, n) := by simpa using h1
    rw [Sym2.eq_iff] at h1
    exact hnt s hs hc h1)
  exact (key u hu).symm.trans (key n hn)

theorem Inv.acyclic_closed (hg : g.Lawful) (h : Inv g root st d) (hq : d.stack = [])
    (hac : g.simple.IsAcyclic) (u v : Nat) (hu : u ∈ discovered root st) (ha : g.Adj u v) :
    v ∈ discovered root st := by
  by_contra hv
  obtain ⟨n, h1, h2, h3, h4⟩ := h.incomplete hq hu ha hv
  exact h.acyclic_tree hg hac hu h1 h2 h3 h4

theorem Inv.acyclic_edge (hg : g.Lawful) (h : Inv g root st d)
    (hac : g.simple.IsAcyclic) {u v : Nat} (hu : u ∈ discovered root st) (hv : v ∈ discovered root st)
    (hne : u ≠ v) (ha : g.Adj u v) : 1 ≤ jc u v (st.map Step.pair) := by
  have := h.acyclic_tree hg hac hu hv (Ne.symm hne) ha
  unfold NonTree at this
  push Not at this
  obtain ⟨s, hs, -, h1⟩ := this
  rcases h1 with ⟨rfl, rfl⟩ | ⟨rfl, rfl⟩
  · exact jc_pos (.inl (List.mem_map.2 ⟨s, hs, rfl⟩))
  · exact jc_pos (.inr (List.mem_map.2 ⟨s, hs, rfl⟩))

/-- If nobody has three neighbors, nothing is missed. -/
theorem Inv.deg2_closed (hg : g.Lawful) (h : Inv g root st d) (hq : d.stack = [])
    (hdeg : ∀ x, ¬ Deg3 g x) (u v : Nat) (hu : u ∈ discovered root st) (ha : g.Adj u v) :
    v ∈ discovered root st := by
  by_contra hv
  obtain ⟨n, h1, h2, h3, h4⟩ := h.incomplete hq hu ha hv
  have huv : u ≠ v := by rintro rfl; exact hv hu
  have hnv : n ≠ v := by rintro rfl; exact hv h1
  -- a third neighbor of u along a discovery step
  have third : ∃ q, q ∈ discovered root st ∧ q ≠ u ∧ q ≠ n ∧ g.Adj u q := by
    rcases mem_discovered.1 hu with hr | ⟨s, hs1, hs2, hs3⟩
    · -- u is the root: n is discovered, so the root has a child
      subst hr
      have hlen : st ≠ [] := by
        rintro rfl
        simp [discovered] at h1; exact h2 h1
      -- the first discovery step starts at the root
      have hex : ∃ s ∈ st, s.cut = false ∧ s.sid = u := by
        by_contra hc
        push Not at hc
        have : ∀ x ∈ discovered u st, x = u := by
          have := h.truth.tree_path
          intro x hx
          obtain ⟨path, p1, p2, p3⟩ := this x hx
          cases path with
          | nil => simp at p1
          | cons a rest =>
            simp at p1; subst p1
            cases rest with
            | nil => simpa using p2.symm
            | cons b rest =>
              rw [List.isChain_cons_cons] at p3
              obtain ⟨⟨s, hs, hsc, hsa, -⟩, -⟩ := p3
              exact absurd hsa (hc s hs hsc)
        exact h2 (this n h1)
      obtain ⟨s, hs, hc, hsu⟩ := hex
      refine ⟨s.tid, h.truth.tid_mem hs, ?_, ?_, hsu ▸ h.step_adj s hs⟩
      · intro e; exact h.truth.ne hs hc (hsu.trans e.symm)
      · intro e; exact h4 s hs hc (.inl ⟨hsu, e⟩)
    · refine ⟨s.sid, h.truth.sid_mem hs1, ?_, ?_, ?_⟩
      · intro e; exact h.truth.ne hs1 hs2 (e.trans hs3.symm)
      · intro e; exact h4 s hs1 hs2 (.inr ⟨e, hs3⟩)
      · have := h.step_adj s hs1
        rw [hs3] at this; exact hg.adj_symm _ _ this
  obtain ⟨q, q1, q2, q3, q4⟩ := third
  have hqv : q ≠ v := by rintro rfl; exact hv q1
  exact hdeg u ⟨q, n, v, q3, hqv, hnv, (hg.simple_adj).2 ⟨Ne.symm q2, q4⟩,
    (hg.simple_adj).2 ⟨Ne.symm h2, h3⟩, (hg.simple_adj).2 ⟨huv, ha⟩⟩

theorem Inv.deg2_edge (h : Inv g root st d) (hq : d.stack = []) (hdeg : ∀ x, ¬ Deg3 g x) {u v : Nat}
    (hu : u ∈ discovered root st) (hv : v ∈ discovered root st) (hne : u ≠ v) (ha : g.Adj u v) :
    1 ≤ jc u v (st.map Step.pair) := by
  rcases h.edge u hu v hv hne ha with h1 | h1 | h1 | h1 | h1
  · exact h1
  · rw [hq] at h1; simp at h1
  · rw [hq] at h1; simp at h1
  · exact absurd h1 (hdeg _)
  · exact absurd h1 (hdeg _)

/-! ### `into_table` -/

/-- The nodes a traversal's steps mention: nothing without a step. -/
def seen (root : Nat) (st : List Step) : List Nat := if st.isEmpty then [] else discovered root st

theorem seen_snoc (root : Nat) (st : List Step) (s : Step) :
    seen root (st ++ [s]) = (if st.isEmpty then [root] else seen root st) ++ (if s.cut then [] else [s.tid]) := by
  unfold seen
  cases st with
  | nil => cases hc : s.cut <;> simp [discovered, hc]
  | cons a st => simp only [List.cons_append, List.isEmpty_cons, Bool.false_eq_true, if_false]
                 cases hc : s.cut
                 · simpa using discovered_new root (a :: st) s hc
                 · simpa using discovered_cut root (a :: st) s hc

theorem Truthful.first (h : Truthful root st) {s : Step} {post : List Step} (e : st = s :: post) : s.sid = root := by
  have := (h [] s post (by simpa using e)).1
  simpa [discovered] using this

theorem table_fold (h : Truthful root st) :
    st.foldlM tableStep ([], []) = .ok (seen root st, st.map Step.pair) := by
  have : ∀ pre post, st = pre ++ post →
      post.foldlM tableStep (seen root pre, pre.map Step.pair) = .ok (seen root st, st.map Step.pair) := by
    intro pre post
    induction post generalizing pre with
    | nil => intro e; simp at e; subst e; rfl
    | cons s post ih =>
      intro e
      rw [List.foldlM_cons]
      have : tableStep (seen root pre, pre.map Step.pair) s = .ok (seen root (pre ++ [s]), (pre ++ [s]).map Step.pair) := by
        unfold tableStep
        rw [seen_snoc]
        simp only [List.map_append, List.map_cons, List.map_nil]
        cases pre with
        | nil =>
          have hs := Truthful.first h (s := s) (post := post) (by simpa using e)
          cases hc : s.cut <;> simp [seen, hs, Step.pair]
        | cons a pre =>
          cases hc : s.cut <;> simp [seen, discovered, Step.pair]
      rw [this]
      exact ih (pre ++ [s]) (by simp [e])
  exact this [] st rfl

end DepthFirst

/-! ### `TryFrom<DepthFirst>` -/

namespace DefaultGraph
open DepthFirst

theorem dfs_fold {root : Nat} {st : List Step} (h : Truthful root st)
    (honce : ∀ u v, u ≠ v → jc u v (st.map Step.pair) ≤ 1)
    (hloop : ∀ v, (st.map Step.pair).count (v, v) ≤ 1) :
    ∃ r : DefaultGraph, st.foldlM tryFromDfsStep .new = .ok r ∧
      Good (fun g => Ordered g ∧ EdgeExact g) r ∧ r.nodes = seen root st ∧ r.edges = st.map Step.pair := by
  have hop := opInv_and opInv_ordered opInv_edgeExact
  have : ∀ pre post, st = pre ++ post → ∀ r : DefaultGraph,
      Good (fun g => Ordered g ∧ EdgeExact g) r → r.nodes = seen root pre → r.edges = pre.map Step.pair →
      ∃ r' : DefaultGraph, post.foldlM tryFromDfsStep r = .ok r' ∧
      Good (fun g => Ordered g ∧ EdgeExact g) r' ∧ r'.nodes = seen root st ∧ r'.edges = st.map Step.pair := by
    intro pre post
    induction post generalizing pre with
    | nil => intro e r h1 h2 h3; simp at e; subst e; exact ⟨r, rfl, h1, h2, h3⟩
    | cons s post ih =>
      intro e r k n1 d1
      have ht := h pre s post e
      -- first: the root
      obtain ⟨r1, e1, k1, n1', d1'⟩ : ∃ r1 : DefaultGraph,
          (if r.isEmpty then r.addNodeQ s.sid else .ok r) = .ok r1 ∧
          Good (fun g => Ordered g ∧ EdgeExact g) r1 ∧ r1.nodes = discovered root pre ∧ r1.edges = r.edges := by
        cases pre with
        | nil =>
          have hs := Truthful.first h (s := s) (post := post) (by simpa using e)
          have hn : r.nodes = [] := by rw [n1]; rfl
          have hm : s.sid ∉ r.nodes := by rw [hn]; simp
          obtain ⟨r1, q1, q2, q3⟩ := addNodeQ_new k.1 hm
          refine ⟨r1, ?_, k.addNodeQ hop q1, ?_, q3.edges⟩
          · rw [← q1]; simp [DefaultGraph.isEmpty, hn]
          · rw [q3.nodes, hn, hs]; rfl
        | cons a pre =>
          have hn : r.nodes = discovered root (a :: pre) := by rw [n1]; rfl
          refine ⟨r, ?_, k, hn, rfl⟩
          simp [DefaultGraph.isEmpty, hn, discovered]
      obtain ⟨r2, e2, k2, n2, d2⟩ : ∃ r2 : DefaultGraph,
          (if !s.cut then r1.addNodeQ s.tid else .ok r1) = .ok r2 ∧
          Good (fun g => Ordered g ∧ EdgeExact g) r2 ∧ r2.nodes = discovered root (pre ++ [s]) ∧ r2.edges = r1.edges := by
        cases hc : s.cut with
        | true => exact ⟨r1, by simp, k1, by rw [discovered_cut _ _ _ hc]; exact n1', rfl⟩
        | false =>
          have hm : s.tid ∉ r1.nodes := by rw [n1', ← ht.2, hc]; simp
          obtain ⟨r2, q1, q2, q3⟩ := addNodeQ_new k1.1 hm
          exact ⟨r2, by simpa using q1, k1.addNodeQ hop q1, by rw [q3.nodes, n1', discovered_new _ _ _ hc], q3.edges⟩
      have hs1 : s.sid ∈ r2.nodes := by rw [n2]; exact discovered_mono ht.1
      have hs2 : s.tid ∈ r2.nodes := by
        rw [n2]
        have : Truthful root (pre ++ [s]) := by
          intro p x q e'
          exact h p x (q ++ post) (by rw [e]; have := congrArg (· ++ post) e'; simpa using this)
        exact this.tid_mem (by simp)
      have hd2 : r2.edges = pre.map Step.pair := by rw [d2, d1', d1]
      have hna : ¬ r2.toI.Adj s.sid s.tid := by
        rw [k2.2.2.2.adj_iff_same k2.1 k2.2.1, hd2]
        rintro ⟨⟨a, b⟩, hf, hsame⟩
        have hst : st.map Step.pair = pre.map Step.pair ++ ((s.sid, s.tid) :: post.map Step.pair) := by
          rw [e]; simp [Step.pair]
        by_cases hne : s.sid = s.tid
        · have h1 := hloop s.sid
          rw [hst, List.count_append, List.count_cons, ← hne] at h1
          have h2 : 0 < (pre.map Step.pair).count (s.sid, s.sid) := by
            rw [List.count_pos_iff]
            rcases hsame with ⟨h3, h4⟩ | ⟨h3, h4⟩ <;> simp only at h3 h4 <;> rw [h3, h4, ← hne] at hf <;> exact hf
          simp at h1; omega
        · have h1 := honce s.sid s.tid hne
          rw [hst, jc_append] at h1
          have h2 : 1 ≤ jc s.sid s.tid (pre.map Step.pair) := by
            apply jc_pos
            rcases hsame with ⟨h3, h4⟩ | ⟨h3, h4⟩ <;> simp only at h3 h4 <;> rw [h3, h4] at hf
            · exact .inl hf
            · exact .inr hf
          have h3 : 1 ≤ jc s.sid s.tid ((s.sid, s.tid) :: post.map Step.pair) := jc_pos (.inl (by simp))
          omega
      obtain ⟨r3, q1, q2, q3⟩ := addEdgeQ_new k2.1 hs1 hs2 hna
      have hstep : tryFromDfsStep r s = .ok r3 := by
        unfold tryFromDfsStep
        rw [e1, Out.ok_bind, e2, Out.ok_bind, q1]
      rw [List.foldlM_cons, hstep, Out.ok_bind]
      refine ih (pre ++ [s]) (by simp [e]) r3 (k2.addEdgeQ hop q1) ?_ ?_
      · rw [q3.nodes, n2]; simp [seen]
      · rw [q3.edges, hd2]; simp [Step.pair]
  exact this [] st rfl .new (Good.new ⟨ordered_new, edgeExact_new⟩) rfl rfl

theorem exists_first_twice (st : List Step) (h : ¬ LoopsOnce st) :
    ∃ pre s post, st = pre ++ s :: post ∧ LoopsOnce pre ∧ s.tid = s.sid ∧ s.pair ∈ pre.map Step.pair ∧
      2 ≤ (st.map Step.pair).count (s.sid, s.sid) := by
  induction st using List.reverseRecOn with
  | nil => exact absurd (fun v => by simp) h
  | append_singleton st s ih =>
    by_cases h' : LoopsOnce st
    · unfold LoopsOnce at h
      push Not at h
      obtain ⟨v, hv⟩ := h
      rw [List.map_append, List.count_append] at hv
      have h1 := h' v
      have e : (s.sid, s.tid) = (v, v) := by
        by_contra hc
        rw [List.map_cons, List.map_nil, List.count_cons_of_ne hc, List.count_nil] at hv; omega
      rw [Prod.mk.injEq] at e
      obtain ⟨rfl, e2⟩ := e
      refine ⟨st, s, [], rfl, h', e2, ?_, ?_⟩
      · have : 0 < (st.map Step.pair).count (s.sid, s.sid) := by
          have h2 : ([s].map (fun s : Step => (s.sid, s.tid))).count (s.sid, s.sid) ≤ 1 := List.count_le_length
          have : (st.map Step.pair) = st.map (fun s => (s.sid, s.tid)) := rfl
          rw [this]; omega
        rw [List.count_pos_iff] at this
        rw [Step.pair, e2]; exact this
      · have : ((st ++ [s]).map Step.pair) = (st.map (fun s => (s.sid, s.tid)) ++ [s].map (fun s => (s.sid, s.tid))) := by
          rw [List.map_append]; rfl
        rw [this, List.count_append]; omega
    · obtain ⟨pre, t, post, rfl, h1, h2, h3, h4⟩ := ih h'
      refine ⟨pre, t, post ++ [s], by simp, h1, h2, h3, ?_⟩
      rw [List.map_append, List.count_append]; omega

theorem dfs_fold_fails {root : Nat} {st : List Step} (h : Truthful root st)
    (honce : ∀ u v, u ≠ v → jc u v (st.map Step.pair) ≤ 1) (hloop : ¬ LoopsOnce st) :
    ∃ v, 2 ≤ (st.map Step.pair).count (v, v) ∧ st.foldlM tryFromDfsStep .new = .err (.duplicateEdge v v) := by
  obtain ⟨pre, s, post, e, h1, h2, h3, h4⟩ := exists_first_twice st hloop
  refine ⟨s.sid, h4, ?_⟩
  have htr : Truthful root pre := fun p x q e' => h p x (q ++ s :: post) (by rw [e, e']; simp)
  obtain ⟨r, q1, q2, q3, q4⟩ := dfs_fold htr (fun u v hne => by
      have := honce u v hne
      rw [e, List.map_append, jc_append] at this; omega) (fun v => h1 v)
  have hne : pre ≠ [] := by rintro rfl; simp at h3
  have hn : r.nodes = discovered root pre := by rw [q3]; simp [seen, hne]
  have ht := h pre s post e
  have hm : s.sid ∈ r.nodes := by rw [hn]; exact ht.1
  have hc : s.cut = true := by rw [ht.2, h2]; exact ht.1
  have hE : r.isEmpty = false := by simp [DefaultGraph.isEmpty, hn, discovered]
  have ha : r.toI.Adj s.sid s.tid := by
    rw [q2.2.2.2.adj_iff_same q2.1 q2.2.1, q4]
    exact ⟨s.pair, h3, .inl ⟨rfl, rfl⟩⟩
  rw [e, List.foldlM_append, q1, Out.ok_bind, List.foldlM_cons]
  have : tryFromDfsStep r s = .err (.duplicateEdge s.sid s.sid) := by
    unfold tryFromDfsStep
    rw [hE, hc]
    simp only [Bool.false_eq_true, if_false, Out.ok_bind, Bool.not_true]
    rw [addEdgeQ_dup q2.1 hm (h2 ▸ hm) ha, h2]
  rw [this]; rfl

/-- Any graph obtained from a depth-first traversal, of whatever graph and from whatever state, is reachable. -/
theorem reachable_tryFromDfs (g : GraphI) (fuel : Nat) (d : DepthFirst) (r : DefaultGraph)
    (h : tryFromDfs g fuel d = .ok r) : r.ReachableNoAdjLoop := by
  have key : ∀ (fuel : Nat) (d : DepthFirst) (r0 r : DefaultGraph), r0.ReachableNoAdjLoop →
      forLoop (DepthFirst.next g) tryFromDfsStep fuel d r0 = .ok r → r.ReachableNoAdjLoop := by
    intro fuel
    induction fuel with
    | zero => intro d r0 r _ h; simp [forLoop] at h
    | succ n ih =>
      intro d r0 r hr h
      rw [forLoop, Out.bind_eq_ok] at h
      obtain ⟨⟨o, d'⟩, -, h⟩ := h
      cases o with
      | none => simp at h; subst h; exact hr
      | some s =>
        simp only at h
        rw [Out.bind_eq_ok] at h
        obtain ⟨r', h1, h2⟩ := h
        refine ih d' r' r ?_ h2
        unfold tryFromDfsStep at h1
        rw [Out.bind_eq_ok] at h1
        obtain ⟨r1, h3, h1⟩ := h1
        rw [Out.bind_eq_ok] at h1
        obtain ⟨r2, h4, h1⟩ := h1
        have hQ : ∀ (a b : DefaultGraph) (x : Nat), a.ReachableNoAdjLoop → a.addNodeQ x = .ok b → b.ReachableNoAdjLoop := by
          intro a b x ha hb
          unfold addNodeQ at hb
          rw [Out.bind_eq_ok] at hb
          obtain ⟨_, -, hb⟩ := hb
          cases hb; exact .addNode _ _ ha
        have i1 : r1.ReachableNoAdjLoop := by
          split at h3
          · exact hQ _ _ _ hr h3
          · cases h3; exact hr
        have i2 : r2.ReachableNoAdjLoop := by
          split at h4
          · exact hQ _ _ _ i1 h4
          · cases h4; exact i1
        unfold addEdgeQ at h1
        rw [Out.bind_eq_ok] at h1
        obtain ⟨_, -, h1⟩ := h1
        cases h1; exact .addEdge _ _ _ i2
  exact key fuel d _ r .new h

end DefaultGraph
end Gamma
