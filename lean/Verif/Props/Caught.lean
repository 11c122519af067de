import Verif.Proofs.ComponentsLeft
import Verif.Props.AnyGraph
import Verif.Proofs.TraversalLeft
/-
Properties C94 and C95: `components`, `BreadthFirst` and `DepthFirst`, if a panic is caught and the iterator is used again.
-/
namespace Gamma

/-! ### C94 -/

/-- **C94, the outcome.**  The model that also tells what is left agrees with the one that does not: the call returns exactly if
its outcome is `ok`, and otherwise fails alike. -/
theorem C94_same_outcome (g : GraphI) (fuel : Nat) (c : Components) :
    (∀ o c', Components.next g fuel c = .ok (o, c') ↔ Components.nextLeft g fuel c = (c', .ok o)) ∧
    (∀ m, Components.next g fuel c = .panic m ↔ (Components.nextLeft g fuel c).2 = .panic m) ∧
    (∀ e, Components.next g fuel c = .err e ↔ (Components.nextLeft g fuel c).2 = .err e) ∧
    (Components.next g fuel c = .timeout ↔ (Components.nextLeft g fuel c).2 = .timeout) := by
  rw [Components.next_eq_left]
  rcases Components.nextLeft g fuel c with ⟨q, o⟩
  cases o <;> simp [and_comm]

/-- Where nothing panics, catching makes no difference: what is yielded is what `components` yields. -/
theorem C94_no_panic (g : GraphI) (comps : List DefaultGraph) :
    Components.Run g comps ↔ Components.CaughtRun g (comps.map .ok) :=
  exists_congr fun _ => forall_congr' fun fuel => forall_congr' fun _ =>
    endsCaught_iff (Components.next_eq_left g fuel) _ _

/-- **C94, ends.**  If every panic is caught, `components` ends, in one way only. -/
theorem C94_ends (g : GraphI) (hg : g.Directed) : ∃! items, Components.CaughtRun g items := by
  obtain ⟨N, hN⟩ := directed_bound hg
  obtain ⟨items, h1, -⟩ := Components.endsCaught hg hN (Components.new g) ⟨[], by simp [Components.new], by simp⟩
  refine ⟨items.map Prod.snd, ⟨N, h1⟩, ?_⟩
  rintro items' ⟨M, h2⟩
  exact endsCaught_unique (h2 (max M N) (by omega)) (h1 (max M N) (by omega))

/-- **C94.**  What the calls yield if panics are caught.  Every call has a root of its own, in the order of `nodes()`; it yields what a
depth-first traversal from there gives, or panics, the latter exactly if that traversal reports some self-loop twice.  Every
node is in a graph that is yielded or is the root of a call that panics; no root is in a graph yielded before; and before
a node is a root every earlier one of `nodes()` has been one or is in a graph yielded before. -/
theorem C94_caught (g : GraphI) (hg : g.Directed) (items : List (Out DefaultGraph)) (h : Components.CaughtRun g items) :
    ∃ roots : List Nat, roots.length = items.length ∧ roots.Sublist g.nodes ∧
    (∀ e ∈ roots.zip items, ∃ steps, DepthFirst.Run g e.1 steps ∧
      (LoopsOnce steps → ∃ c, e.2 = .ok c ∧ c.ReachableNoAdjLoop ∧ c.nodes = discovered e.1 steps ∧
        c.edges = steps.map (fun s => (s.sid, s.tid)) ∧
        ∀ v ∈ c.nodes, c.neighbors v = .ok (incident v (steps.map (fun s => (s.sid, s.tid))))) ∧
      (¬ LoopsOnce steps → e.2 = .panic "traversal error")) ∧
    (∀ x ∈ g.nodes, (x, .panic "traversal error") ∈ roots.zip items ∨ ∃ o ∈ items, Components.InGraph o x) ∧
    (roots.zip items).Pairwise (fun a b => ¬ Components.InGraph a.2 b.1) ∧
    (∀ l e l', roots.zip items = l ++ e :: l' → ∀ x, [x, e.1].Sublist g.nodes →
      ∃ e' ∈ l, x = e'.1 ∨ Components.InGraph e'.2 x) := by
  obtain ⟨N, hN⟩ := directed_bound hg
  obtain ⟨its, h1, h2, h3, h4, h5, h6, h7⟩ :=
    Components.endsCaught hg hN (Components.new g) ⟨[], by simp [Components.new], by simp⟩
  obtain ⟨M, h0⟩ := h
  obtain rfl := endsCaught_unique (h0 (max M N) (by omega)) (h1 (max M N) (by omega))
  have hz : (its.map Prod.fst).zip (its.map Prod.snd) = its := by
    clear h0 h1 h2 h3 h4 h5 h6 h7
    induction its with
    | nil => rfl
    | cons a l ih => simp [ih]
  refine ⟨its.map Prod.fst, by simp, h2, ?_, ?_, ?_, ?_⟩ <;> rw [hz]
  · intro e he
    obtain ⟨st, s1, s2, s3⟩ := h3 e he
    refine ⟨st, s1, fun hl => ?_, s3⟩
    obtain ⟨c, e1, hi⟩ := s2 hl
    obtain ⟨st', r1, r2, r3⟩ := hi.run
    obtain rfl := s1.unique r1
    exact ⟨c, e1, hi.built, r2, r3, fun v hv => by rw [hi.ordered v hv, r3]; rfl⟩
  · intro x hx
    rcases h4 x hx with h | ⟨e, he, h | h⟩
    · simp [Components.new] at h
    · obtain ⟨st, s1, s2, s3⟩ := h3 e he
      by_cases hl : LoopsOnce st
      · obtain ⟨c, e1, hi⟩ := s2 hl
        exact .inr ⟨e.2, List.mem_map.2 ⟨e, he, rfl⟩, c, e1, h ▸ hi.root_mem⟩
      · left
        rw [h, ← s3 hl]; exact he
    · exact .inr ⟨e.2, List.mem_map.2 ⟨e, he, rfl⟩, h⟩
  · exact h6
  · intro l e l' he x hx
    rcases h7 l e l' he x hx with h | h
    · simp [Components.new] at h
    · exact h

/-- **C94, the rest of the graph.**  A panic does no harm elsewhere: a node from which following `neighbors` leads to no node that is listed
twice as its own neighbor is in a graph that is yielded. -/
theorem C94_others_yielded (g : GraphI) (hg : g.Directed) (items : List (Out DefaultGraph)) (h : Components.CaughtRun g items)
    (x : Nat) (hx : x ∈ g.nodes) (hl : ∀ u, g.LeadsTo x u → (g.nbr u).count u ≤ 1) : ∃ o ∈ items, Components.InGraph o x := by
  obtain ⟨roots, -, h1, h2, h3, -⟩ := C94_caught g hg items h
  rcases h3 x hx with h4 | h4
  · obtain ⟨st, s1, s2, -⟩ := h2 _ h4
    have hL : LoopsOnce st := by
      intro v
      obtain ⟨d, d', -, -, hW, -⟩ := s1.winv
      by_cases hv : (v, v) ∈ st.map (fun s => (s.sid, s.tid))
      · obtain ⟨s, hs, e⟩ := List.mem_map.1 hv
        have hsid : s.sid = v := congrArg Prod.fst e
        have h4 := hW.count v v
        have h5 := hl v (hsid ▸ hW.leadsTo _ (hW.truth.sid_mem hs))
        have h6 : st.map Step.pair = st.map (fun s => (s.sid, s.tid)) := rfl
        rw [h6] at h4
        omega
      · rw [List.count_eq_zero.2 hv]; omega
    obtain ⟨c, e, -⟩ := s2 hL
    simp at e
  · exact h4

/-- **C94, graphs without cycles.**  There the components are yielded, each once and in full, in which no node is listed twice as its
own neighbor; and for each node of the other ones there is a panic. -/
theorem C94_acyclic (g : GraphI) (hg : g.Lawful) (hac : g.simple.IsAcyclic) (items : List (Out DefaultGraph))
    (h : Components.CaughtRun g items) :
    (∀ o ∈ items, o = .panic "traversal error" ∨ ∃ c, o = .ok c ∧ ∃ r ∈ g.nodes, ∀ v, v ∈ c.nodes ↔ g.simple.Reachable r v) ∧
    (∀ x ∈ g.nodes, (∃ o ∈ items, Components.InGraph o x) ↔ ∀ u, g.simple.Reachable x u → (g.nbr u).count u ≤ 1) ∧
    (∃ bad : List Nat, bad.Sublist g.nodes ∧ (∀ x, x ∈ bad ↔ x ∈ g.nodes ∧ ∃ u, g.simple.Reachable x u ∧ 2 ≤ (g.nbr u).count u) ∧
      items.count (.panic "traversal error") = bad.length) ∧
    items.Pairwise (fun a b => ∀ x, ¬ (Components.InGraph a x ∧ Components.InGraph b x)) := by
  obtain ⟨roots, hlen, h1, h2, h3, h4, -⟩ := C94_caught g hg.directed items h
  -- the traversal from any node finds all of its component, and all its self-loops
  have hdisc : ∀ r st, DepthFirst.Run g r st → ∀ v, v ∈ discovered r st ↔ g.simple.Reachable r v := fun r st hst v =>
    C24_dfs_discovers_acyclic_partial g hg hac r st hst v
  have hloop : ∀ r st, DepthFirst.Run g r st → (LoopsOnce st ↔ ∀ u, g.simple.Reachable r u → (g.nbr u).count u ≤ 1) := by
    intro r st hst
    constructor
    · intro hl u hu
      rw [← hst.loops_full hg ((hdisc r st hst u).2 hu) (fun ⟨c, hc⟩ => hac c hc)]
      exact hl u
    · intro hl v
      by_cases hv : (v, v) ∈ st.map (fun s => (s.sid, s.tid))
      · obtain ⟨s, hs, e⟩ := List.mem_map.1 hv
        obtain ⟨d, d', -, -, hW, -⟩ := hst.winv
        have hsid : s.sid = v := congrArg Prod.fst e
        have hd := hW.truth.sid_mem hs
        rw [hsid] at hd
        have := hst.loops_full hg hd (fun ⟨c, hc⟩ => hac c hc)
        have h6 : st.map Step.pair = st.map (fun s => (s.sid, s.tid)) := rfl
        rw [← h6, this]
        exact hl v ((hdisc r st hst v).1 hd)
      · rw [List.count_eq_zero.2 hv]; omega
  have hitem : ∀ e ∈ roots.zip items, (e.2 = .panic "traversal error" ∧ ∃ u, g.simple.Reachable e.1 u ∧ 2 ≤ (g.nbr u).count u) ∨
      ∃ c, e.2 = .ok c ∧ (∀ u, g.simple.Reachable e.1 u → (g.nbr u).count u ≤ 1) ∧
        ∀ v, v ∈ c.nodes ↔ g.simple.Reachable e.1 v := by
    intro e he
    obtain ⟨st, s1, s2, s3⟩ := h2 e he
    by_cases hl : LoopsOnce st
    · right
      obtain ⟨c, e1, -, e2, -⟩ := s2 hl
      exact ⟨c, e1, (hloop _ _ s1).1 hl, fun v => by rw [e2]; exact hdisc _ _ s1 v⟩
    · left
      refine ⟨s3 hl, ?_⟩
      rw [hloop _ _ s1] at hl
      push Not at hl
      obtain ⟨u, hu, h⟩ := hl
      exact ⟨u, hu, by omega⟩
  have hmem : ∀ o ∈ items, ∃ r ∈ g.nodes, (r, o) ∈ roots.zip items := by
    intro o ho
    obtain ⟨i, hi, rfl⟩ := List.mem_iff_getElem.1 ho
    have hi' : i < roots.length := by omega
    refine ⟨roots[i], h1.subset (List.getElem_mem _), ?_⟩
    rw [List.mem_iff_getElem]
    exact ⟨i, by simp; omega, by simp⟩
  have hfst : ∀ e ∈ roots.zip items, e.2 ∈ items := fun e he => (List.of_mem_zip (a := e.1) (b := e.2) he).2
  have hgraph : ∀ r o, (r, o) ∈ roots.zip items → ∀ x, Components.InGraph o x →
      g.simple.Reachable r x ∧ ∀ u, g.simple.Reachable x u → (g.nbr u).count u ≤ 1 := by
    rintro r o ho x ⟨c, rfl, hx⟩
    rcases hitem _ ho with ⟨he, -⟩ | ⟨c', he, hc, hv⟩
    · simp at he
    · simp at he; subst he
      have := (hv x).1 hx
      exact ⟨this, fun u hu => hc u (this.trans hu)⟩
  refine ⟨?_, ?_, ?_, ?_⟩
  · intro o ho
    obtain ⟨r, hr, hz⟩ := hmem o ho
    rcases hitem _ hz with ⟨he, -⟩ | ⟨c, he, -, hv⟩
    · exact .inl he
    · exact .inr ⟨c, he, r, hr, hv⟩
  · intro x hx
    constructor
    · rintro ⟨o, ho, h5⟩
      obtain ⟨r, hr, hz⟩ := hmem o ho
      exact (hgraph r o hz x h5).2
    · intro hl
      rcases h3 x hx with h5 | h5
      · rcases hitem _ h5 with ⟨-, u, hu, h6⟩ | ⟨c, he, -⟩
        · have := hl u hu; omega
        · simp at he
      · exact h5
  · refine ⟨((roots.zip items).filter (fun e => e.2 = .panic "traversal error")).map Prod.fst, ?_, ?_, ?_⟩
    · have h5 : ((roots.zip items).filter (fun e => e.2 = .panic "traversal error")).map Prod.fst |>.Sublist
          ((roots.zip items).map Prod.fst) := List.filter_sublist.map _
      rw [List.map_fst_zip (by omega)] at h5
      exact h5.trans h1
    · intro x
      simp only [List.mem_map, List.mem_filter, decide_eq_true_eq]
      constructor
      · rintro ⟨e, ⟨he, e2⟩, rfl⟩
        refine ⟨h1.subset (List.of_mem_zip (a := e.1) (b := e.2) he).1, ?_⟩
        rcases hitem e he with ⟨-, h5⟩ | ⟨c, h5, -⟩
        · exact h5
        · rw [e2] at h5; simp at h5
      · rintro ⟨hx, u, hu, h5⟩
        rcases h3 x hx with h6 | ⟨o, ho, h6⟩
        · exact ⟨_, ⟨h6, rfl⟩, rfl⟩
        · obtain ⟨r, hr, hz⟩ := hmem o ho
          have := (hgraph r o hz x h6).2 u hu
          omega
    · rw [List.length_map, ← List.countP_eq_length_filter, List.count_eq_countP]
      have h5 : items = (roots.zip items).map Prod.snd := (List.map_snd_zip (by omega)).symm
      conv_lhs => rw [h5]
      rw [List.countP_map]
      rfl
  · have h5 : items = (roots.zip items).map Prod.snd := (List.map_snd_zip (by omega)).symm
    rw [h5, List.pairwise_map]
    refine List.Pairwise.imp_of_mem ?_ h4
    rintro ⟨r, o⟩ ⟨r', o'⟩ ha hb hne x ⟨hxa, hxb⟩
    obtain ⟨k1, -⟩ := hgraph r o ha x hxa
    obtain ⟨k2, -⟩ := hgraph r' o' hb x hxb
    obtain ⟨c, rfl, hc⟩ := hxa
    rcases hitem _ ha with ⟨he, -⟩ | ⟨c', he, -, hv⟩
    · simp at he
    · simp at he; subst he
      exact hne ⟨c, rfl, (hv _).2 (k1.trans k2.symm)⟩

/-- Two nodes 0-1 with a self-loop at 1, two nodes 2-3, and a node 4. -/
def caughtG : DefaultGraph := [GraphOp.node 0, .node 1, .node 2, .node 3, .node 4, .edge 0 1, .edge 1 1, .edge 2 3].foldl DefaultGraph.perform .new

theorem caughtG_reachable : caughtG.Reachable := by
  unfold caughtG
  simp only [List.foldl, DefaultGraph.perform]
  repeat (first | exact .new | apply DefaultGraph.Reachable.addNode | apply DefaultGraph.Reachable.addEdge)

theorem Components.nextLeft_none {g : GraphI} {fuel : Nat} {c : Components} (h : (Components.nextLeft g fuel c).2 = .ok none) :
    ∀ m, Components.nextLeft g m (Components.nextLeft g fuel c).1 = ((Components.nextLeft g fuel c).1, .ok none) := by
  have h' := ((C94_same_outcome g fuel c).1 none (Components.nextLeft g fuel c).1).2 (Prod.ext rfl h)
  unfold Components.next at h'
  revert h h'
  unfold Components.nextLeft
  cases hf : Components.findRoot c.visited c.iter with
  | mk o rest =>
    cases o with
    | none =>
      obtain ⟨rfl, -⟩ := Components.findRoot_none hf
      intro _ _ m; simp [Components.findRoot]
    | some root =>
      simp only
      cases (DepthFirst.new g root).expect "root not found" with
      | ok t =>
        simp only [Out.ok_bind]
        cases (DefaultGraph.tryFromDfs g fuel t).expect "traversal error" with
        | ok comp =>
          simp only [Out.ok_bind]
          by_cases he : comp.isEmpty
          · simp only [he, if_true]
            cases (comp.addNodeQ root).expect "add root to empty graph" <;> simp
          · simp [he]
        | _ => simp
      | _ => simp

theorem Components.nextLeft_mono {g : GraphI} {n m : Nat} (h : n ≤ m) {c : Components}
    (hc : (Components.nextLeft g n c).2 ≠ .timeout) : Components.nextLeft g m c = Components.nextLeft g n c := by
  revert hc
  unfold Components.nextLeft
  cases Components.findRoot c.visited c.iter with
  | mk o rest =>
    cases o with
    | none => simp
    | some root =>
      simp only
      cases (DepthFirst.new g root).expect "root not found" with
      | ok t =>
        simp only [Out.ok_bind]
        rcases (tryFromDfs_le (g := g) h t).expect (m := "traversal error") with h1 | h1
        · rw [h1]; simp
        · rw [h1]; simp
      | _ => simp

/-- From a run within one budget. -/
theorem Components.caughtRun_of {g : GraphI} {N : Nat} {items : List (Out DefaultGraph)}
    (h : callsCaught (Components.nextLeft g N) (items.length + 1) (Components.new g) =
      items.map (fun o => o >>= fun a => .ok (some a)) ++ [.ok none]) (ht : .timeout ∉ items) :
    Components.CaughtRun g items := by
  refine ⟨N, fun fuel hf => ?_⟩
  revert h
  generalize Components.new g = c
  induction items generalizing c with
  | nil =>
    intro h
    simp [callsCaught] at h
    have h1 := Components.nextLeft_mono hf (c := c) (by rw [h]; simp)
    exact endsCaught_nil (s' := (Components.nextLeft g N c).1) (by rw [h1]; exact Prod.ext rfl h) (Components.nextLeft_none h fuel)
  | cons o items ih =>
    intro h
    simp only [callsCaught, List.map_cons, List.cons_append, List.cons.injEq] at h
    have h1 := Components.nextLeft_mono hf (c := c) (by rw [h.1]; cases o <;> simp_all)
    refine endsCaught_cons (s' := (Components.nextLeft g N c).1) (by rw [h1]; exact Prod.ext rfl h.1) ?_
    exact ih (fun hc => ht (List.mem_cons_of_mem _ hc)) _ h.2

/-- There is such a graph: the first two calls panic, and the others yield the other two components. -/
theorem C94_example : caughtG.toI.Lawful ∧ caughtG.toI.Directed ∧ (∀ u, caughtG.toI.LeadsTo 2 u → (caughtG.toI.nbr u).count u ≤ 1) ∧
    ∃ c c' : DefaultGraph, Components.CaughtRun caughtG.toI [.panic "traversal error", .panic "traversal error", .ok c, .ok c'] ∧
      c.nodes = [2, 3] ∧ c.edges = [(2, 3)] ∧ c'.nodes = [4] := by
  have hl := reachable_lawful _ caughtG_reachable
  refine ⟨hl, hl.directed, ?_, ⟨[(3, 1), (2, 0)], [[3], [2]], [2, 3], [(2, 3)]⟩, ⟨[(4, 0)], [[]], [4], []⟩,
    Components.caughtRun_of (N := 12) (by decide +kernel) (by simp), rfl, rfl, rfl⟩
  intro u hu
  have : u ∈ [2, 3] := oneWay_leadsTo [2, 3] (by simp) (by decide +kernel) u hu
  revert u
  intro u _ hu
  simp at hu
  rcases hu with rfl | rfl <;> decide +kernel

theorem caughtG_acyclic : caughtG.toI.simple.IsAcyclic := by
  have hl := reachable_lawful _ caughtG_reachable
  intro x c hc
  -- a node on a cycle has two neighbors besides itself
  have h2 : ∀ x, ∀ a b, caughtG.toI.simple.Adj x a → caughtG.toI.simple.Adj x b → a = b := by
    intro x a b ha hb
    obtain ⟨n1, a1⟩ := hl.simple_adj.1 ha
    obtain ⟨n2, a2⟩ := hl.simple_adj.1 hb
    have hx := hl.adj_src a1
    have hn : caughtG.toI.nodes = [0, 1, 2, 3, 4] := by decide +kernel
    rw [hn] at hx
    have key : ∀ x ∈ [0, 1, 2, 3, 4], ∀ a ∈ caughtG.toI.nbr x, ∀ b ∈ caughtG.toI.nbr x, x ≠ a → x ≠ b → a = b := by decide +kernel
    exact key x hx a (GraphI.mem_nbr.2 a1) b (GraphI.mem_nbr.2 a2) n1 n2
  have h3 := hc.ne_nil
  have h4 := hc.snd_ne_penultimate
  exact h4 (h2 x _ _ (c.adj_snd hc.not_nil) (c.adj_penultimate hc.not_nil).symm)

example : caughtG.toI.Lawful ∧ caughtG.toI.simple.IsAcyclic ∧ ∃ items, Components.CaughtRun caughtG.toI items ∧
    items.count (.panic "traversal error") = 2 :=
  have ⟨h1, _, _, c, c', h2, _⟩ := C94_example
  ⟨h1, caughtG_acyclic, _, h2, by simp⟩

/-! ### C95 -/

/-- **C95, the outcome.**  The models that also tell what is left agree with the ones that do not. -/
theorem C95_same_outcome (g : GraphI) :
    (∀ b : BreadthFirst,
      (∀ o b', BreadthFirst.next g b = .ok (o, b') ↔ BreadthFirst.nextLeft g b = (b', .ok o)) ∧
      (∀ m, BreadthFirst.next g b = .panic m ↔ (BreadthFirst.nextLeft g b).2 = .panic m) ∧
      (∀ e, BreadthFirst.next g b = .err e ↔ (BreadthFirst.nextLeft g b).2 = .err e) ∧
      (BreadthFirst.next g b = .timeout ↔ (BreadthFirst.nextLeft g b).2 = .timeout)) ∧
    (∀ d : DepthFirst,
      (∀ o d', DepthFirst.next g d = .ok (o, d') ↔ DepthFirst.nextLeft g d = (d', .ok o)) ∧
      (∀ m, DepthFirst.next g d = .panic m ↔ (DepthFirst.nextLeft g d).2 = .panic m) ∧
      (∀ e, DepthFirst.next g d = .err e ↔ (DepthFirst.nextLeft g d).2 = .err e) ∧
      (DepthFirst.next g d = .timeout ↔ (DepthFirst.nextLeft g d).2 = .timeout)) := by
  constructor
  · rintro ⟨nodes, _ | ⟨⟨p, n⟩, rest⟩⟩
    · simp [BreadthFirst.next, BreadthFirst.nextLeft, and_comm]
    · by_cases h : n ∈ nodes
      · simp [BreadthFirst.next, BreadthFirst.nextLeft, h, and_comm]
      · simp only [BreadthFirst.next, BreadthFirst.nextLeft, List.contains_iff_mem, h, if_false]
        cases (g.neighbors n).expect "unwrap" <;> simp [and_comm]
  · rintro ⟨nodes, _ | ⟨⟨p, n⟩, rest⟩⟩
    · simp [DepthFirst.next, DepthFirst.nextLeft, and_comm]
    · by_cases h : n ∈ nodes
      · simp [DepthFirst.next, DepthFirst.nextLeft, h, and_comm]
      · simp only [DepthFirst.next, DepthFirst.nextLeft, List.contains_iff_mem, h, if_false]
        cases (g.neighbors n).expect "unwrap" <;> simp [and_comm]

theorem answering_new {g : GraphI} {root : Nat} :
    (∀ b, BreadthFirst.new g root = .ok b → BreadthFirst.new g.answering root = .ok (BreadthFirst.heard g b) ∧
      b.queue.countP (fun e => !g.answers e.2) = g.mute root ∧
      (∀ x ∈ b.nodes, g.answers x = true) ∧ ∀ e ∈ b.queue, g.answers e.1 = true) ∧
    (∀ d, DepthFirst.new g root = .ok d → DepthFirst.new g.answering root = .ok (DepthFirst.heard g d) ∧
      d.stack.countP (fun e => !g.answers e.2) = g.mute root ∧ ∀ x ∈ d.nodes, g.answers x = true) := by
  unfold BreadthFirst.new DepthFirst.new
  cases h : g.neighbors root with
  | ok l =>
    have ha : g.answers root = true := GraphI.answers_iff.2 ⟨l, h⟩
    constructor
    · intro b hb
      simp at hb; subst hb
      refine ⟨?_, ?_, by simpa using ha, by simpa using fun _ _ => ha⟩
      · simp [GraphI.answering, h, BreadthFirst.heard, List.filter_map, Function.comp_def]
      · simp [GraphI.mute, GraphI.nbr_of_ok h, List.countP_map, Function.comp_def]
    · intro b hb
      simp at hb; subst hb
      refine ⟨?_, ?_, by simpa using ha⟩
      · simp [GraphI.answering, h, DepthFirst.heard, List.filter_map, Function.comp_def]
      · simp [GraphI.mute, GraphI.nbr_of_ok h, List.countP_map, Function.comp_def]
  | _ => simp

/-- **C95.**  On any implementation of `Graph` whose `neighbors` answers or fails with an `Err`: if panics are caught and the traversal is
used again, then the calls that return, return what a traversal returns of the graph from whose neighbor lists those nodes
are struck at which `neighbors` fails; and the others panic. -/
theorem C95_caught (g : GraphI) (hn : ∀ v, (∃ l, g.neighbors v = .ok l) ∨ ∃ e, g.neighbors v = .err e) (root n : Nat) :
    (∀ b, BreadthFirst.new g root = .ok b → ∃ b' os, BreadthFirst.new g.answering root = .ok b' ∧
      (callsCaught (BreadthFirst.nextLeft g) n b).filterMap Out.val? = os ∧
      calls (BreadthFirst.next g.answering) os.length b' = .ok os ∧
      ∀ o ∈ callsCaught (BreadthFirst.nextLeft g) n b, (∃ a, o = .ok a) ∨ o = .panic "unwrap") ∧
    (∀ d, DepthFirst.new g root = .ok d → ∃ d' os, DepthFirst.new g.answering root = .ok d' ∧
      (callsCaught (DepthFirst.nextLeft g) n d).filterMap Out.val? = os ∧
      calls (DepthFirst.next g.answering) os.length d' = .ok os ∧
      ∀ o ∈ callsCaught (DepthFirst.nextLeft g) n d, (∃ a, o = .ok a) ∨ o = .panic "unwrap") := by
  constructor
  · intro b hb
    obtain ⟨h1, -, h2⟩ := answering_new.1 b hb
    have := (BreadthFirst.simulates g hn).calls n b h2
    exact ⟨_, _, h1, rfl, this.1, this.2⟩
  · intro d hd
    obtain ⟨h1, -, h2⟩ := answering_new.2 d hd
    have := (DepthFirst.simulates g hn).calls n d h2
    exact ⟨_, _, h1, rfl, this.1, this.2⟩

theorem length_items {items : List (Out Step)} (h : ∀ o ∈ items, (∃ a, o = .ok a) ∨ o = .panic "unwrap") :
    items.length = (items.filterMap Out.val?).length + items.count (.panic "unwrap") := by
  induction items with
  | nil => rfl
  | cons o l ih =>
    have := ih (fun o ho => h o (by simp [ho]))
    rcases h o (by simp) with ⟨a, rfl⟩ | rfl
    · rw [List.filterMap_cons_some (Out.val?_ok a)]; simp [this]; omega
    · rw [List.filterMap_cons_none rfl]; simp [this]; omega

theorem sum_discovered (f : Nat → Nat) (root : Nat) (steps : List Step) :
    ((discovered root steps).map f).sum = f root + (steps.map (fun s => if s.cut then 0 else f s.tid)).sum := by
  have : ∀ l : List Step, (((l.filter (fun s => !s.cut)).map Step.tid).map f).sum =
      (l.map (fun s => if s.cut then 0 else f s.tid)).sum := by
    intro l
    induction l with
    | nil => rfl
    | cons s l ih =>
      cases hc : s.cut
      · rw [List.filter_cons_of_pos (by simp [hc])]
        simp [hc] at ih ⊢
        exact ih
      · rw [List.filter_cons_of_neg (by simp [hc])]
        simp [hc] at ih ⊢
        exact ih
  have := this steps
  simp [discovered] at this ⊢
  exact this

/-- **C95, ends.**  If the traversal of the graph without these nodes ends, so does the one with panics caught; a breadth-first one
panics once for each neighbor without an answer listed by a discovered node, a depth-first one at most as often. -/
theorem C95_ends (g : GraphI) (hn : ∀ v, (∃ l, g.neighbors v = .ok l) ∨ ∃ e, g.neighbors v = .err e) (root : Nat)
    (steps : List Step) :
    (BreadthFirst.Run g.answering root steps → ∃ b items, BreadthFirst.new g root = .ok b ∧
      EndsCaught (BreadthFirst.nextLeft g) b items ∧ items.filterMap Out.val? = steps ∧
      (∀ o ∈ items, (∃ s, o = .ok s) ∨ o = .panic "unwrap") ∧
      items.count (.panic "unwrap") = ((discovered root steps).map (fun v => (g.nbr v).countP (fun w => !g.answers w))).sum) ∧
    (DepthFirst.Run g.answering root steps → ∃ d items, DepthFirst.new g root = .ok d ∧
      EndsCaught (DepthFirst.nextLeft g) d items ∧ items.filterMap Out.val? = steps ∧
      (∀ o ∈ items, (∃ s, o = .ok s) ∨ o = .panic "unwrap") ∧
      items.count (.panic "unwrap") ≤ ((discovered root steps).map (fun v => (g.nbr v).countP (fun w => !g.answers w))).sum) := by
  have hroot : ∀ l', g.answering.neighbors root = .ok l' → ∃ l, g.neighbors root = .ok l := by
    intro l' h
    simp only [GraphI.answering] at h
    cases hr : g.neighbors root with
    | ok l => exact ⟨l, rfl⟩
    | _ => rw [hr] at h; simp at h
  constructor
  · rintro ⟨b', hb', he⟩
    obtain ⟨l, hl⟩ := hroot _ ((C75_new g.answering root).1.1 ⟨b', hb'⟩).choose_spec
    obtain ⟨b, hb⟩ := (C75_new g root).1.2 ⟨l, hl⟩
    obtain ⟨h1, h2, h3⟩ := answering_new.1 b hb
    rw [hb'] at h1; injection h1 with h1; subst h1
    obtain ⟨items, i1, i2, i3, -, i5⟩ := (BreadthFirst.simulates g hn).ends steps b h3 he
    refine ⟨b, items, hb, i1, i2, i3, ?_⟩
    have e1 := i5 trivial
    have e2 := length_items i3
    have e3 := sum_discovered g.mute root steps
    rw [i2] at e2
    unfold GraphI.mute at e1 e3 h2
    simp only [h2] at e1
    omega
  · rintro ⟨d', hd', he⟩
    obtain ⟨l, hl⟩ := hroot _ ((C75_new g.answering root).2.1.1 ⟨d', hd'⟩).choose_spec
    obtain ⟨d, hd⟩ := (C75_new g root).2.1.2 ⟨l, hl⟩
    obtain ⟨h1, h2, h3⟩ := answering_new.2 d hd
    rw [hd'] at h1; injection h1 with h1; subst h1
    obtain ⟨items, i1, i2, i3, i4, -⟩ := (DepthFirst.simulates g hn).ends steps d h3 he
    refine ⟨d, items, hd, i1, i2, i3, ?_⟩
    have e2 := length_items i3
    have e3 := sum_discovered g.mute root steps
    rw [i2] at e2
    unfold GraphI.mute at i4 e3 h2
    simp only [h2] at i4
    omega

theorem answering_adj {g : GraphI} {u v : Nat} : g.answering.Adj u v ↔ g.Adj u v ∧ ∃ l, g.neighbors v = .ok l := by
  rw [← GraphI.answers_iff]
  unfold GraphI.Adj GraphI.answering
  cases h : g.neighbors u <;> simp [h]

/-- **C95, complete.**  If the root answers and leads to finitely many nodes, a breadth-first traversal with panics caught ends, and
discovers, each once, exactly the nodes to which following `neighbors` leads by way of nodes that answer; so does a
depth-first one, if the root leads to no directed cycle of three or more nodes. -/
theorem C95_complete (g : GraphI) (hn : ∀ v, (∃ l, g.neighbors v = .ok l) ∨ ∃ e, g.neighbors v = .err e) (root : Nat)
    (hr : ∃ l, g.neighbors root = .ok l) (L : List Nat) (hL : ∀ v, g.LeadsTo root v → v ∈ L) :
    (∃ b items, BreadthFirst.new g root = .ok b ∧ EndsCaught (BreadthFirst.nextLeft g) b items ∧
      (discovered root (items.filterMap Out.val?)).Nodup ∧
      ∀ v, v ∈ discovered root (items.filterMap Out.val?) ↔
        Relation.ReflTransGen (fun u w => g.Adj u w ∧ ∃ l, g.neighbors w = .ok l) root v) ∧
    (∃ d items, DepthFirst.new g root = .ok d ∧ EndsCaught (DepthFirst.nextLeft g) d items ∧
      (discovered root (items.filterMap Out.val?)).Nodup ∧
      ((∀ C, DirectedCycle g C → ∀ v ∈ C, ¬ g.LeadsTo root v) → ∀ v, v ∈ discovered root (items.filterMap Out.val?) ↔
        Relation.ReflTransGen (fun u w => g.Adj u w ∧ ∃ l, g.neighbors w = .ok l) root v)) := by
  have hadj : g.answering.Adj = fun u w => g.Adj u w ∧ ∃ l, g.neighbors w = .ok l := by
    funext u w; exact propext answering_adj
  have hlead : ∀ u v, g.answering.LeadsTo u v → g.LeadsTo u v := fun u v h =>
    Relation.ReflTransGen.mono (r := g.answering.Adj) (p := g.Adj) (fun a b hab => (answering_adj.1 hab).1) u v h
  have hok : ∀ v, g.answering.LeadsTo root v → ∃ l, g.answering.neighbors v = .ok l := by
    intro v h
    have h1 : ∃ l, g.neighbors v = .ok l := by
      rcases Relation.ReflTransGen.cases_tail h with rfl | ⟨u, -, hu⟩
      · exact hr
      · exact (answering_adj.1 hu).2
    obtain ⟨l, hl⟩ := h1
    exact ⟨l.filter g.answers, by simp [GraphI.answering, hl]⟩
  have hL' : ∀ v, g.answering.LeadsTo root v → v ∈ L := fun v h => hL v (hlead _ _ h)
  constructor
  · obtain ⟨st, hst⟩ := (C75_bfs_ends_iff g.answering root L hL').1.2 hok
    obtain ⟨b, items, h1, h2, h3, -⟩ := (C95_ends g hn root st).1 hst
    obtain ⟨a1, -⟩ := C75_bfs_discovers g.answering root st hst
    obtain ⟨b1, b2, -, -, hA, -⟩ := hst.ainv
    refine ⟨b, items, h1, h2, ?_, ?_⟩ <;> rw [h3]
    · exact hA.inv.truth.nodup
    · intro v; rw [a1, GraphI.LeadsTo, hadj]
  · obtain ⟨st, hst⟩ := (C76_dfs_ends_or_panics g.answering root L hL').1 hok
    obtain ⟨d, items, h1, h2, h3, -⟩ := (C95_ends g hn root st).2 hst
    obtain ⟨d1, d2, -, -, hW, -⟩ := hst.winv
    refine ⟨d, items, h1, h2, ?_, ?_⟩ <;> rw [h3]
    · exact hW.truth.nodup
    · intro hac v
      rw [C76_dfs_discovers_acyclic g.answering root ?_ st hst v, GraphI.LeadsTo, hadj]
      intro C hC x hx h
      refine hac C ⟨hC.nodup, hC.long, ?_, ?_⟩ x hx (hlead _ _ h)
      · exact hC.chain.imp (fun a b hab => (answering_adj.1 hab).1)
      · intro a b ha hb; exact (answering_adj.1 (hC.closes a b ha hb)).1

/-- 0 lists 1, 9, 2 and 1 lists 2, 9; 2 lists 0; 9 is no node, and `neighbors(9)` is an `Err`. -/
def muteG : GraphI := oneWay [(0, [1, 9, 2]), (1, [2, 9]), (2, [0])]

theorem muteG_neighbors (v : Nat) : (∃ l, muteG.neighbors v = .ok l) ∨ ∃ e, muteG.neighbors v = .err e := by
  unfold muteG oneWay
  simp only
  split
  · exact .inl ⟨_, rfl⟩
  · exact .inr ⟨_, rfl⟩

/-- There is such a graph; the breadth-first traversal panics twice, the depth-first one, which gives up the first of
the two, once; and both discover the other nodes. -/
theorem C95_example : (∀ v, (∃ l, muteG.neighbors v = .ok l) ∨ ∃ e, muteG.neighbors v = .err e) ∧
    (∃ l, muteG.neighbors 0 = .ok l) ∧ (∀ v, muteG.LeadsTo 0 v → v ∈ [0, 1, 2, 9]) ∧ muteG.neighbors 9 = .err (.missingNode 9) ∧
    ((BreadthFirst.new muteG 0 >>= fun b => .ok (callsCaught (BreadthFirst.nextLeft muteG) 8 b)) =
      .ok [.ok (some ⟨0, 1, false⟩), .panic "unwrap", .ok (some ⟨0, 2, false⟩), .ok (some ⟨1, 2, true⟩), .panic "unwrap", .ok none,
        .ok none, .ok none]) ∧
    ((DepthFirst.new muteG 0 >>= fun d => .ok (callsCaught (DepthFirst.nextLeft muteG) 8 d)) =
      .ok [.ok (some ⟨0, 1, false⟩), .ok (some ⟨1, 2, false⟩), .ok (some ⟨2, 0, true⟩), .panic "unwrap", .ok none, .ok none, .ok none,
        .ok none]) := by
  refine ⟨muteG_neighbors, ⟨_, rfl⟩, fun v hv => oneWay_leadsTo [0, 1, 2, 9] (by simp) (by decide +kernel) v hv, rfl,
    by decide +kernel, by decide +kernel⟩

/-- The hypotheses of `C95_ends` are met by it: both traversals of the graph without 9 end. -/
example : BreadthFirst.Run muteG.answering 0 [⟨0, 1, false⟩, ⟨0, 2, false⟩, ⟨1, 2, true⟩] ∧
    DepthFirst.Run muteG.answering 0 [⟨0, 1, false⟩, ⟨1, 2, false⟩, ⟨2, 0, true⟩] :=
  ⟨BreadthFirst.run_of_collect (fuel := 10) (by decide +kernel), DepthFirst.run_of_collect (fuel := 10) (by decide +kernel)⟩

end Gamma
