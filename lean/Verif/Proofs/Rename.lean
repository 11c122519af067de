import Verif.Proofs.GreedyMore
import Verif.Proofs.Fuel
/-
Renaming the nodes, and forgetting what is not connected to the root.
-/
namespace Gamma

theorem Trace.sim {σ σ' α α' : Type} {next : σ → Out (Option α × σ)} {next' : σ' → Out (Option α' × σ')} (φ : α → α')
    {R : σ → σ' → Prop}
    (hstep : ∀ s t s' a, R s t → next s = .ok (some a, s') → ∃ t', next' t = .ok (some (φ a), t') ∧ R s' t')
    {s s' : σ} {l : List α} (h : Trace next s l s') {t : σ'} (hr : R s t) :
    ∃ t', Trace next' t (l.map φ) t' ∧ R s' t' := by
  induction h generalizing t with
  | nil s => exact ⟨t, .nil t, hr⟩
  | cons s s1 s2 a l hn _ ih =>
    obtain ⟨t1, h1, r1⟩ := hstep _ _ _ _ hr hn
    obtain ⟨t2, h2, r2⟩ := ih r1
    exact ⟨t2, .cons _ _ _ _ _ h1 h2, r2⟩

/-- `f` maps the part `D` of `g` into `h`, keeping the neighbor lists. -/
structure Maps (f : Nat → Nat) (D : Nat → Prop) (g h : GraphI) : Prop where
  inj : ∀ u v, D u → D v → f u = f v → u = v
  nbr : ∀ u, D u → ∃ l, g.neighbors u = .ok l ∧ h.neighbors (f u) = .ok (l.map f) ∧ ∀ x ∈ l, D x

namespace Maps
variable {f : Nat → Nat} {D : Nat → Prop} {g h : GraphI}

theorem beq (m : Maps f D g h) {u v : Nat} (hu : D u) (hv : D v) : (f u == f v) = (u == v) := by
  rw [Bool.eq_iff_iff, beq_iff_eq, beq_iff_eq]
  exact ⟨m.inj u v hu hv, fun e => by rw [e]⟩

theorem contains (m : Maps f D g h) {l : List Nat} (hl : ∀ x ∈ l, D x) {v : Nat} (hv : D v) :
    (l.map f).contains (f v) = l.contains v := by
  rw [Bool.eq_iff_iff]
  simp only [List.contains_eq_mem, decide_eq_true_eq, List.mem_map]
  exact ⟨fun ⟨x, hx, e⟩ => m.inj x v (hl x hx) hv e ▸ hx, fun hx => ⟨v, hx, rfl⟩⟩

/-- The edges with both ends renamed. -/
abbrev both (f : Nat → Nat) (l : List (Nat × Nat)) : List (Nat × Nat) := l.map (fun e => (f e.1, f e.2))

theorem filter (m : Maps f D g h) {l : List (Nat × Nat)} (hl : ∀ e ∈ l, D e.1 ∧ D e.2) {x n : Nat} (hx : D x) (hn : D n) :
    (both f l).filter (fun e => e.1 != f x && e.2 != f n) = both f (l.filter (fun e => e.1 != x && e.2 != n)) := by
  unfold both
  rw [List.filter_map]
  congr 1
  apply List.filter_congr
  intro e he
  simp only [Function.comp, bne, m.beq (hl e he).1 hx, m.beq (hl e he).2 hn]

/-! #### Depth-first -/

/-- The two traversals in step. -/
structure DfsRel (f : Nat → Nat) (D : Nat → Prop) (d d' : DepthFirst) : Prop where
  nodes : d'.nodes = d.nodes.map f
  stack : d'.stack = both f d.stack
  hnodes : ∀ x ∈ d.nodes, D x
  hstack : ∀ e ∈ d.stack, D e.1 ∧ D e.2

theorem dfs_push (m : Maps f D g h) {vis : List Nat} {p n : Nat} (hvis : ∀ x ∈ vis, D x) (hp : D p) (hn : D n)
    (l : List Nat) (hl : ∀ x ∈ l, D x) (stack : List (Nat × Nat)) (hs : ∀ e ∈ stack, D e.1 ∧ D e.2) :
    (l.map f).foldl (DepthFirst.pushNeighbor (vis.map f) (f p) (f n)) (both f stack) =
      both f (l.foldl (DepthFirst.pushNeighbor vis p n) stack) ∧
    ∀ e ∈ l.foldl (DepthFirst.pushNeighbor vis p n) stack, D e.1 ∧ D e.2 := by
  induction l generalizing stack with
  | nil => exact ⟨rfl, hs⟩
  | cons x l ih =>
    have hx := hl x (by simp)
    have key : DepthFirst.pushNeighbor (vis.map f) (f p) (f n) (both f stack) (f x) =
        both f (DepthFirst.pushNeighbor vis p n stack x) ∧
        ∀ e ∈ DepthFirst.pushNeighbor vis p n stack x, D e.1 ∧ D e.2 := by
      unfold DepthFirst.pushNeighbor
      rw [m.beq hx hp, m.contains hvis hx]
      split
      · exact ⟨rfl, hs⟩
      · split
        · refine ⟨by rw [m.filter hs hx hn]; rfl, fun e he => ?_⟩
          rcases List.mem_cons.1 he with rfl | he
          · exact ⟨hn, hx⟩
          · exact hs e (List.mem_filter.1 he).1
        · refine ⟨rfl, fun e he => ?_⟩
          rcases List.mem_cons.1 he with rfl | he
          · exact ⟨hn, hx⟩
          · exact hs e he
    rw [List.map_cons, List.foldl_cons, List.foldl_cons, key.1]
    exact ih (fun x hx => hl x (by simp [hx])) _ key.2

theorem dfs_next (m : Maps f D g h) {d t : DepthFirst} (r : DfsRel f D d t) {d' : DepthFirst} {a : Step}
    (e : DepthFirst.next g d = .ok (some a, d')) :
    ∃ t', DepthFirst.next h t = .ok (some (a.rename f), t') ∧ DfsRel f D d' t' := by
  obtain ⟨vis, stack⟩ := d
  obtain ⟨vis', stack'⟩ := t
  obtain ⟨rfl, rfl, hv, hs⟩ := r
  simp only at hv hs ⊢
  cases stack with
  | nil => simp [DepthFirst.next] at e
  | cons top rest =>
    obtain ⟨p, n⟩ := top
    have hp := (hs (p, n) (by simp)).1
    have hn := (hs (p, n) (by simp)).2
    have hrest : ∀ e ∈ rest, D e.1 ∧ D e.2 := fun e he => hs e (by simp [he])
    unfold DepthFirst.next at e ⊢
    simp only [both, List.map_cons] at e ⊢
    rw [m.contains hv hn]
    split at e
    · next hc =>
      rw [if_pos hc]
      simp only [Out.ok.injEq, Prod.mk.injEq, Option.some.injEq] at e
      obtain ⟨rfl, rfl⟩ := e
      exact ⟨_, rfl, ⟨rfl, rfl, hv, hrest⟩⟩
    · next hc =>
      rw [if_neg hc]
      obtain ⟨l, e1, e2, hl⟩ := m.nbr n hn
      rw [e1] at e
      rw [e2]
      simp only [Out.expect, Out.ok_bind, Out.ok.injEq, Prod.mk.injEq, Option.some.injEq] at e ⊢
      obtain ⟨rfl, rfl⟩ := e
      have := m.dfs_push hv hp hn l.reverse (fun x hx => hl x (by simpa using hx)) rest hrest
      refine ⟨_, ⟨rfl, rfl⟩, ⟨by simp, ?_, ?_, this.2⟩⟩
      · simp only
        rw [← this.1, List.map_reverse]
      · intro x hx
        rcases List.mem_cons.1 hx with rfl | hx
        · exact hn
        · exact hv x hx

theorem dfs (m : Maps f D g h) (hg : g.Lawful) {root : Nat} (hr : D root) {steps : List Step}
    (hrun : DepthFirst.Run g root steps) : DepthFirst.Run h (f root) (steps.map (Step.rename f)) := by
  obtain ⟨-, d, dl, e, t, he, -, hq⟩ := hrun.inv hg
  obtain ⟨l, e1, e2, hl⟩ := m.nbr root hr
  have hd : d = { nodes := [root], stack := l.map (fun n => (root, n)) } := by
    simp [DepthFirst.new, e1] at e
    exact e.symm
  have hrel : DfsRel f D d { nodes := [f root], stack := (l.map f).map (fun n => (f root, n)) } := by
    subst hd
    refine ⟨rfl, by simp [both], by simpa using hr, ?_⟩
    intro e he
    obtain ⟨x, hx, rfl⟩ := List.mem_map.1 he
    exact ⟨hr, hl x hx⟩
  obtain ⟨t', ht, rel⟩ := Trace.sim (next' := DepthFirst.next h) (R := DfsRel f D) (Step.rename f)
    (fun s t s' a r e => m.dfs_next r e) t hrel
  refine ⟨_, by simp [DepthFirst.new, e2], endsAfter_of_trace ht ?_⟩
  have : t'.stack = [] := by rw [rel.stack, hq]; rfl
  simp [DepthFirst.next, this]

/-! #### Breadth-first -/

/-- The two traversals in step. -/
structure BfsRel (f : Nat → Nat) (D : Nat → Prop) (d d' : BreadthFirst) : Prop where
  nodes : d'.nodes = d.nodes.map f
  queue : d'.queue = both f d.queue
  hnodes : ∀ x ∈ d.nodes, D x
  hqueue : ∀ e ∈ d.queue, D e.1 ∧ D e.2

theorem bfs_push (m : Maps f D g h) {vis : List Nat} {p n : Nat} (hvis : ∀ x ∈ vis, D x) (hp : D p) (hn : D n)
    (l : List Nat) (hl : ∀ x ∈ l, D x) (queue : List (Nat × Nat)) (hs : ∀ e ∈ queue, D e.1 ∧ D e.2) :
    (l.map f).foldl (BreadthFirst.pushNeighbor (vis.map f) (f p) (f n)) (both f queue) =
      both f (l.foldl (BreadthFirst.pushNeighbor vis p n) queue) ∧
    ∀ e ∈ l.foldl (BreadthFirst.pushNeighbor vis p n) queue, D e.1 ∧ D e.2 := by
  induction l generalizing queue with
  | nil => exact ⟨rfl, hs⟩
  | cons x l ih =>
    have hx := hl x (by simp)
    have key : BreadthFirst.pushNeighbor (vis.map f) (f p) (f n) (both f queue) (f x) =
        both f (BreadthFirst.pushNeighbor vis p n queue x) ∧
        ∀ e ∈ BreadthFirst.pushNeighbor vis p n queue x, D e.1 ∧ D e.2 := by
      unfold BreadthFirst.pushNeighbor
      rw [m.beq hx hp, m.contains hvis hx]
      split
      · exact ⟨rfl, hs⟩
      · refine ⟨by simp [both], fun e he => ?_⟩
        rcases List.mem_append.1 he with he | he
        · exact hs e he
        · simp at he; subst he; exact ⟨hn, hx⟩
    rw [List.map_cons, List.foldl_cons, List.foldl_cons, key.1]
    exact ih (fun x hx => hl x (by simp [hx])) _ key.2

theorem bfs_next (m : Maps f D g h) {d t : BreadthFirst} (r : BfsRel f D d t) {d' : BreadthFirst} {a : Step}
    (e : BreadthFirst.next g d = .ok (some a, d')) :
    ∃ t', BreadthFirst.next h t = .ok (some (a.rename f), t') ∧ BfsRel f D d' t' := by
  obtain ⟨vis, queue⟩ := d
  obtain ⟨vis', queue'⟩ := t
  obtain ⟨rfl, rfl, hv, hs⟩ := r
  simp only at hv hs ⊢
  cases queue with
  | nil => simp [BreadthFirst.next] at e
  | cons top rest =>
    obtain ⟨p, n⟩ := top
    have hp := (hs (p, n) (by simp)).1
    have hn := (hs (p, n) (by simp)).2
    have hrest : ∀ e ∈ rest, D e.1 ∧ D e.2 := fun e he => hs e (by simp [he])
    unfold BreadthFirst.next at e ⊢
    simp only [both, List.map_cons] at e ⊢
    rw [m.contains hv hn]
    split at e
    · next hc =>
      rw [if_pos hc]
      simp only [Out.ok.injEq, Prod.mk.injEq, Option.some.injEq] at e
      obtain ⟨rfl, rfl⟩ := e
      exact ⟨_, rfl, ⟨rfl, rfl, hv, hrest⟩⟩
    · next hc =>
      rw [if_neg hc]
      obtain ⟨l, e1, e2, hl⟩ := m.nbr n hn
      rw [e1] at e
      rw [e2]
      simp only [Out.expect, Out.ok_bind, Out.ok.injEq, Prod.mk.injEq, Option.some.injEq] at e ⊢
      obtain ⟨rfl, rfl⟩ := e
      have := m.bfs_push hv hp hn l hl rest hrest
      refine ⟨_, ⟨rfl, rfl⟩, ⟨by simp, ?_, ?_, this.2⟩⟩
      · simp only
        rw [← this.1]
      · intro x hx
        rcases List.mem_cons.1 hx with rfl | hx
        · exact hn
        · exact hv x hx

theorem bfs (m : Maps f D g h) (hg : g.Lawful) {root : Nat} (hr : D root) {steps : List Step}
    (hrun : BreadthFirst.Run g root steps) : BreadthFirst.Run h (f root) (steps.map (Step.rename f)) := by
  obtain ⟨hroot, -⟩ := hrun.inv hg
  obtain ⟨d, st, dl, e, t, he, -, hq⟩ := BreadthFirst.run hg hroot
  obtain ⟨d0, e0, hends⟩ := hrun
  rw [e] at e0; injection e0 with e0; subst e0
  have hst := endsAfter_unique hends (endsAfter_of_trace t he)
  subst hst
  obtain ⟨l, e1, e2, hl⟩ := m.nbr root hr
  have hd : d = { nodes := [root], queue := l.map (fun n => (root, n)) } := by
    simp [BreadthFirst.new, e1] at e
    exact e.symm
  have hrel : BfsRel f D d { nodes := [f root], queue := (l.map f).map (fun n => (f root, n)) } := by
    subst hd
    refine ⟨rfl, by simp [both], by simpa using hr, ?_⟩
    intro e he
    obtain ⟨x, hx, rfl⟩ := List.mem_map.1 he
    exact ⟨hr, hl x hx⟩
  obtain ⟨t', ht, rel⟩ := Trace.sim (next' := BreadthFirst.next h) (R := BfsRel f D) (Step.rename f)
    (fun s t s' a r e => m.bfs_next r e) t hrel
  refine ⟨_, by simp [BreadthFirst.new, e2], endsAfter_of_trace ht ?_⟩
  have : t'.queue = [] := by rw [rel.queue, hq]; rfl
  simp [BreadthFirst.next, this]

end Maps

/-! #### Components -/

theorem incident_map {f : Nat → Nat} {D : Nat → Prop} (inj : ∀ u v, D u → D v → f u = f v → u = v) {v : Nat} (hv : D v)
    (es : List (Nat × Nat)) (he : ∀ e ∈ es, D e.1 ∧ D e.2) :
    incident (f v) (Maps.both f es) = (incident v es).map f := by
  unfold incident Maps.both
  induction es with
  | nil => rfl
  | cons e es ih =>
    have h1 : (f v = f e.1) ↔ v = e.1 := ⟨inj _ _ hv (he e (by simp)).1, fun h => by rw [h]⟩
    have h2 : (f v = f e.2) ↔ v = e.2 := ⟨inj _ _ hv (he e (by simp)).2, fun h => by rw [h]⟩
    rw [List.map_cons, List.flatMap_cons, List.flatMap_cons, ih (fun e h => he e (by simp [h])), List.map_append,
      List.map_append]
    congr 2
    · by_cases c : v = e.1
      · simp [h1, c]
      · simp [h1, c]
    · by_cases c : v = e.2
      · simp [h2, c]
      · simp [h2, c]

theorem discovered_rename (f : Nat → Nat) (r : Nat) (st : List Step) :
    discovered (f r) (st.map (Step.rename f)) = (discovered r st).map f := by
  unfold discovered
  simp only [List.map_cons, List.filter_map, List.map_map]
  rfl

namespace GraphI.Renamed
variable {f : Nat → Nat} {g h : GraphI}

theorem maps (r : GraphI.Renamed f g h) (hg : g.Lawful) : Maps f (· ∈ g.nodes) g h where
  inj := fun u v hu hv => r.inj u hu v hv
  nbr := fun u hu => ⟨g.nbr u, hg.neighbors_eq hu, r.neighbors u hu _ (hg.neighbors_eq hu),
    fun _ hx => hg.mem_of_nbr hx⟩

theorem mem (r : GraphI.Renamed f g h) {v : Nat} (hv : v ∈ g.nodes) : f v ∈ h.nodes := by
  rw [r.nodes]; exact List.mem_map.2 ⟨v, hv, rfl⟩

theorem noDoubleLoop (r : GraphI.Renamed f g h) (hg : g.Lawful) (hh : h.Lawful) (hl : g.NoDoubleLoop) :
    h.NoDoubleLoop := by
  intro w
  by_cases hw : w ∈ h.nodes
  · rw [r.nodes] at hw
    obtain ⟨v, hv, rfl⟩ := List.mem_map.1 hw
    rw [GraphI.nbr_of_ok (r.neighbors v hv _ (hg.neighbors_eq hv))]
    have : (List.map f (g.nbr v)).count (f v) = (g.nbr v).count v := by
      unfold List.count
      rw [List.countP_map]
      apply List.countP_congr
      intro x hx
      simp only [Function.comp, beq_iff_eq]
      exact ⟨r.inj x (hg.mem_of_nbr hx) v hv, fun e => by rw [e]⟩
    rw [this]; exact hl v
  · simp [GraphI.nbr, hh.neighbors_err w hw]

end GraphI.Renamed

theorem Components.IsComp.rename {f : Nat → Nat} {g h : GraphI} (hg : g.Lawful)
    (r : GraphI.Renamed f g h) {x : Nat} {c c' : DefaultGraph} (hc : IsComp g x c) (hc' : IsComp h (f x) c') :
    SameComp f c c' := by
  obtain ⟨st, h1, h2, h3⟩ := hc.run
  obtain ⟨st', h1', h2', h3'⟩ := hc'.run
  have hx : x ∈ g.nodes := (h1.inv hg).1
  have := h1'.unique ((r.maps hg).dfs hg hx h1)
  subst this
  have hn : c'.nodes = c.nodes.map f := by rw [h2', h2, discovered_rename]
  have hE : c'.edges = c.edges.map (fun e => (f e.1, f e.2)) := by
    rw [h3', h3, List.map_map, List.map_map]; rfl
  refine ⟨⟨?_, hn, ?_⟩, hE⟩
  · intro u hu v hv
    exact r.inj u (hc.nodes hg hu) v (hc.nodes hg hv)
  · intro v hv l hl
    have hv' : f v ∈ c'.nodes := by rw [hn]; exact List.mem_map.2 ⟨v, hv, rfl⟩
    show c'.neighbors (f v) = _
    have e1 := hc.ordered v hv
    have e1' : c.neighbors v = .ok l := hl
    rw [e1] at e1'; injection e1' with e1'; subst e1'
    rw [hc'.ordered _ hv', hE]
    congr 1
    refine incident_map (D := (· ∈ g.nodes)) (fun u v hu hv => r.inj u hu v hv) (hc.nodes hg hv) _ ?_
    intro e he
    have ha : c.toI.Adj e.1 e.2 := hc.lawful.edges_adj e.1 e.2 he
    exact ⟨hg.adj_src (hc.adj hg ha), hg.adj_mem _ _ (hc.adj hg ha)⟩

theorem pair_sublist {l : List Nat} {a b : Nat} (ha : a ∈ l) (hb : b ∈ l) (hne : a ≠ b) :
    [a, b].Sublist l ∨ [b, a].Sublist l := by
  induction l with
  | nil => simp at ha
  | cons x l ih =>
    rcases List.mem_cons.1 ha with h1 | h1
    · rcases List.mem_cons.1 hb with h2 | h2
      · exact absurd (h1.trans h2.symm) hne
      · exact .inl (h1 ▸ List.Sublist.cons_cons _ (List.singleton_sublist.2 h2))
    · rcases List.mem_cons.1 hb with h2 | h2
      · exact .inr (h2 ▸ List.Sublist.cons_cons _ (List.singleton_sublist.2 h1))
      · rcases ih h1 h2 with h | h
        · exact .inl (h.cons _)
        · exact .inr (h.cons _)

/-- The two results correspond. -/
theorem Components.Result.rename {f : Nat → Nat} {g h : GraphI} (hg : g.Lawful) (r : GraphI.Renamed f g h)
    {rc rc' : List (Nat × DefaultGraph)} (hr : Result g rc) (hr' : Result h rc') :
    List.Forall₂ (fun e e' => e'.1 = f e.1 ∧ SameComp f e.2 e'.2) rc rc' := by
  have key : ∀ l l' pre pre', rc = pre ++ l → rc' = pre' ++ l' →
      List.Forall₂ (fun e e' => e'.1 = f e.1 ∧ SameComp f e.2 e'.2) pre pre' →
      List.Forall₂ (fun e e' => e'.1 = f e.1 ∧ SameComp f e.2 e'.2) rc rc' := by
    have mem1 : ∀ e ∈ rc, e.1 ∈ g.nodes := fun e he => hr.roots.subset (List.mem_map.2 ⟨e, he, rfl⟩)
    have mem2 : ∀ e ∈ rc', e.1 ∈ h.nodes := fun e he => hr'.roots.subset (List.mem_map.2 ⟨e, he, rfl⟩)
    -- covered in one prefix iff in the other
    have cov1 : ∀ (pre pre' : List (Nat × DefaultGraph)), List.Forall₂ (fun e e' => e'.1 = f e.1 ∧ SameComp f e.2 e'.2) pre pre' → ∀ x,
        (∃ e ∈ pre, x ∈ e.2.nodes) → ∃ e' ∈ pre', f x ∈ e'.2.nodes := by
      intro pre pre' hF
      induction hF with
      | nil => simp
      | cons h1 _ ih =>
        rintro x ⟨e, he, hx⟩
        rcases List.mem_cons.1 he with rfl | he
        · exact ⟨_, by simp, h1.2.1.mem hx⟩
        · obtain ⟨e', h2, h3⟩ := ih x ⟨e, he, hx⟩
          exact ⟨e', by simp [h2], h3⟩
    have cov2 : ∀ (pre pre' : List (Nat × DefaultGraph)), List.Forall₂ (fun e e' => e'.1 = f e.1 ∧ SameComp f e.2 e'.2) pre pre' →
        (∀ e ∈ pre, e ∈ rc) → ∀ x ∈ g.nodes,
        (∃ e' ∈ pre', f x ∈ e'.2.nodes) → ∃ e ∈ pre, x ∈ e.2.nodes := by
      intro pre pre' hF
      induction hF with
      | nil => simp
      | cons h1 _ ih =>
        rintro hs x hxg ⟨e, he, hx⟩
        rcases List.mem_cons.1 he with rfl | he
        · have := h1.2.1.nodes
          obtain ⟨y, hy, hxy⟩ := List.mem_map.1 (this ▸ (show f x ∈ e.2.toI.nodes from hx))
          have hyg := (hr.comp _ (hs _ (by simp))).nodes hg hy
          have := r.inj y hyg x hxg hxy
          subst this
          exact ⟨_, by simp, hy⟩
        · obtain ⟨e', h2, h3⟩ := ih (fun e he => hs e (by simp [he])) x hxg ⟨e, he, hx⟩
          exact ⟨e', by simp [h2], h3⟩
    intro l
    induction l with
    | nil =>
      intro l' pre pre' e1 e2 hF
      cases l' with
      | nil => rw [e1, e2, List.append_nil, List.append_nil]; exact hF
      | cons a' l' =>
        exfalso
        have ha := mem2 a' (by rw [e2]; simp)
        rw [r.nodes] at ha
        obtain ⟨x, hx, hxa⟩ := List.mem_map.1 ha
        obtain ⟨e, he, hxe⟩ := hr.cover x hx
        obtain ⟨e', he', hc⟩ := cov1 pre pre' hF x ⟨e, by rw [e1] at he; simpa using he, hxe⟩
        have hfr := hr'.fresh
        rw [e2, List.pairwise_append] at hfr
        exact hfr.2.2 e' he' a' (by simp) (hxa ▸ hc)
    | cons a l ih =>
      intro l' pre pre' e1 e2 hF
      have hpre : ∀ e ∈ pre, e ∈ rc := fun e he => by rw [e1]; simp [he]
      have ha := mem1 a (by rw [e1]; simp)
      have hfr := hr.fresh
      rw [e1, List.pairwise_append] at hfr
      have notcov : ¬ ∃ e' ∈ pre', f a.1 ∈ e'.2.nodes := by
        intro hc
        obtain ⟨e, he, hx⟩ := cov2 pre pre' hF hpre _ ha hc
        exact hfr.2.2 e he a (by simp) hx
      cases l' with
      | nil =>
        exfalso
        obtain ⟨e', he', hc⟩ := hr'.cover (f a.1) (r.mem ha)
        exact notcov ⟨e', by rw [e2] at he'; simpa using he', hc⟩
      | cons a' l' =>
        have ha' := mem2 a' (by rw [e2]; simp)
        rw [r.nodes] at ha'
        obtain ⟨x, hx, hxa⟩ := List.mem_map.1 ha'
        have hfr' := hr'.fresh
        rw [e2, List.pairwise_append] at hfr'
        have hxe : x = a.1 := by
          by_contra hne
          rcases pair_sublist hx ha hne with hs | hs
          · obtain ⟨e', he', hc⟩ := cov1 pre pre' hF x (hr.earlier pre a l e1 x hs)
            exact hfr'.2.2 e' he' a' (by simp) (hxa ▸ hc)
          · have hs' : [f a.1, a'.1].Sublist h.nodes := by
              rw [r.nodes, ← hxa]; exact hs.map f
            exact notcov (hr'.earlier pre' a' l' e2 _ hs')
        have hroot : a'.1 = f a.1 := by rw [← hxa, hxe]
        have hsame : SameComp f a.2 a'.2 := by
          refine Components.IsComp.rename hg r (hr.comp a (by rw [e1]; simp)) ?_
          rw [← hroot]; exact hr'.comp a' (by rw [e2]; simp)
        exact ih l' (pre ++ [a]) (pre' ++ [a']) (by rw [e1]; simp) (by rw [e2]; simp)
          (List.rel_append hF (List.Forall₂.cons ⟨hroot, hsame⟩ .nil))
  exact key rc rc' [] [] rfl rfl .nil

/-! #### `greedy` -/

open Pairing

/-- The two states of `greedy` in step. -/
structure GreedyRel (f : Nat → Nat) (g : GraphI) (s s' : List Nat × Pairing) : Prop where
  seen : s'.1 = s.1.map f
  mem : ∀ x ∈ s.1, x ∈ g.nodes
  get : ∀ x ∈ g.nodes, s'.2.get (f x) = (s.2.get x).map f

theorem greedyStep_rename {f : Nat → Nat} {g h : GraphI} (hg : g.Lawful) (r : GraphI.Renamed f g h)
    {s s' : List Nat × Pairing} (hi : GreedyInv g s) (hi' : GreedyInv h s') (rel : GreedyRel f g s s') {st : Step}
    (ha : g.Adj st.sid st.tid) {s1 : List Nat × Pairing} (e : greedyStep s st = .ok s1) :
    ∃ s1', greedyStep s' (st.rename f) = .ok s1' ∧ GreedyRel f g s1 s1' := by
  have hu := hg.adj_src ha
  have hv := hg.adj_mem _ _ ha
  have m := r.maps hg
  obtain ⟨seen, p⟩ := s
  obtain ⟨seen', p'⟩ := s'
  obtain ⟨rfl, hm, hget⟩ := rel
  simp only at hm hget
  have hm1 : ∀ x ∈ st.sid :: seen, x ∈ g.nodes := by
    intro x hx
    rcases List.mem_cons.1 hx with rfl | hx
    · exact hu
    · exact hm x hx
  have hc2 := m.contains hm1 hv
  rw [List.map_cons] at hc2
  have e' : greedyStep (seen.map f, p') (st.rename f) =
      if seen.contains st.sid = true then .ok (seen.map f, p') else
        if (st.sid :: seen).contains st.tid = true then .ok (f st.sid :: seen.map f, p')
        else .ok (f st.tid :: f st.sid :: seen.map f, p'.pair (f st.sid) (f st.tid)) := by
    show (if (seen.map f).contains (f st.sid) = true then _ else
      if (f st.sid :: seen.map f).contains (f st.tid) = true then _ else _) = _
    simp only [m.contains hm hu, hc2, Step.rename]
  have e0 : greedyStep (seen, p) st =
      if seen.contains st.sid = true then .ok (seen, p) else
        if (st.sid :: seen).contains st.tid = true then .ok (st.sid :: seen, p)
        else .ok (st.tid :: st.sid :: seen, p.pair st.sid st.tid) := rfl
  rw [e0] at e
  show ∃ s1', greedyStep (seen.map f, p') (st.rename f) = .ok s1' ∧ _
  rw [e']
  by_cases h1 : seen.contains st.sid = true
  · rw [if_pos h1] at e ⊢
    injection e with e; subst e
    exact ⟨_, rfl, ⟨rfl, hm, hget⟩⟩
  · rw [if_neg h1] at e ⊢
    by_cases h2 : (st.sid :: seen).contains st.tid = true
    · rw [if_pos h2] at e ⊢
      injection e with e; subst e
      exact ⟨_, rfl, ⟨rfl, hm1, hget⟩⟩
    · rw [if_neg h2] at e ⊢
      injection e with e; subst e
      refine ⟨_, rfl, ⟨rfl, ?_, ?_⟩⟩
      · intro x hx
        rcases List.mem_cons.1 hx with rfl | hx
        · exact hv
        · exact hm1 x hx
      · intro x hx
        simp only [List.contains_eq_mem, decide_eq_true_eq, List.mem_cons, not_or] at h1 h2
        have hne : st.sid ≠ st.tid := fun c => h2.1 c.symm
        have hfne : f st.sid ≠ f st.tid := fun c => hne (r.inj _ hu _ hv c)
        have n1 : p.get st.sid = none := by
          cases e : p.get st.sid with
          | none => rfl
          | some y => exact absurd (hi.seen _ _ e) h1
        have n2 : p.get st.tid = none := by
          cases e : p.get st.tid with
          | none => rfl
          | some y => exact absurd (hi.seen _ _ e) h2.2
        show (p'.pair (f st.sid) (f st.tid)).get (f x) = ((p.pair st.sid st.tid).get x).map f
        rw [get_pair_fresh hi.sym hne n1 n2, get_pair_fresh hi'.sym hfne (by rw [hget _ hu, n1]; rfl)
          (by rw [hget _ hv, n2]; rfl)]
        have q1 : (f x = f st.sid) ↔ x = st.sid := ⟨r.inj _ hx _ hu, fun c => by rw [c]⟩
        have q2 : (f x = f st.tid) ↔ x = st.tid := ⟨r.inj _ hx _ hv, fun c => by rw [c]⟩
        simp only [q1, q2]
        split
        · rfl
        · split
          · rfl
          · exact hget x hx

theorem GraphI.Renamed.adj {f : Nat → Nat} {g h : GraphI} (r : GraphI.Renamed f g h) (hg : g.Lawful) {u v : Nat}
    (ha : g.Adj u v) : h.Adj (f u) (f v) := by
  obtain ⟨l, h1, h2⟩ := ha
  have hu : u ∈ g.nodes := hg.adj_src ⟨l, h1, h2⟩
  exact ⟨_, r.neighbors u hu l h1, List.mem_map.2 ⟨v, h2, rfl⟩⟩

theorem greedyFold_rename {f : Nat → Nat} {g h : GraphI} (hg : g.Lawful) (hh : h.Lawful) (r : GraphI.Renamed f g h)
    (steps : List Step) {s s' : List Nat × Pairing} (hi : GreedyInv g s) (hi' : GreedyInv h s')
    (rel : GreedyRel f g s s') (ha : ∀ st ∈ steps, g.Adj st.sid st.tid) :
    ∃ s1 s1', steps.foldlM greedyStep s = .ok s1 ∧ (steps.map (Step.rename f)).foldlM greedyStep s' = .ok s1' ∧
      GreedyInv g s1 ∧ GreedyInv h s1' ∧ GreedyRel f g s1 s1' := by
  induction steps generalizing s s' with
  | nil => exact ⟨s, s', rfl, rfl, hi, hi', rel⟩
  | cons a l ih =>
    have haa := ha a (by simp)
    obtain ⟨s1, e1, i1, -⟩ := greedyStep_ok hg.adj_symm hi haa
    obtain ⟨s1', e1', rel1⟩ := greedyStep_rename hg r hi hi' rel haa e1
    obtain ⟨s2', e2', i1', -⟩ := greedyStep_ok (st := a.rename f) hh.adj_symm hi' (r.adj hg haa)
    rw [e1'] at e2'; injection e2' with e2'; subst e2'
    obtain ⟨t, t', h1, h2, h3⟩ := ih i1 i1' rel1 (fun st hst => ha st (by simp [hst]))
    refine ⟨t, t', by rw [List.foldlM_cons, e1]; exact h1, ?_, h3⟩
    rw [List.map_cons, List.foldlM_cons, e1']; exact h2

theorem foldComponents_rename {f : Nat → Nat} {g h : GraphI} (hg : g.Lawful) (hh : h.Lawful)
    (r : GraphI.Renamed f g h) {fuel : Nat} {rc rc' : List (Nat × DefaultGraph)}
    (hF : List.Forall₂ (fun e e' => e'.1 = f e.1 ∧ SameComp f e.2 e'.2) rc rc')
    (hc : ∀ e ∈ rc, Components.IsComp g e.1 e.2)
    (h1 : ∀ e ∈ rc, ∃ steps, DepthFirst.Run e.2.toI e.1 steps ∧
        ∀ s, greedyComponent fuel s e.2 = steps.foldlM greedyStep s)
    (h2 : ∀ e ∈ rc', ∃ steps, DepthFirst.Run e.2.toI e.1 steps ∧
        ∀ s, greedyComponent fuel s e.2 = steps.foldlM greedyStep s) {s s' : List Nat × Pairing}
    (hi : GreedyInv g s) (hi' : GreedyInv h s') (rel : GreedyRel f g s s') :
    ∃ s1 s1', (rc.map Prod.snd).foldlM (greedyComponent fuel) s = .ok s1 ∧
      (rc'.map Prod.snd).foldlM (greedyComponent fuel) s' = .ok s1' ∧ GreedyRel f g s1 s1' := by
  induction hF generalizing s s' with
  | nil => exact ⟨s, s', rfl, rfl, rel⟩
  | @cons a a' l l' hr _ ih =>
    obtain ⟨st, r1, k1⟩ := h1 a (by simp)
    obtain ⟨st', r2, k2⟩ := h2 a' (by simp)
    have hca := hc a (by simp)
    have hroot : a.1 ∈ a.2.toI.nodes := hca.root_mem
    rw [hr.1] at r2
    have := r2.unique ((hr.2.1.maps hca.lawful).dfs hca.lawful hroot r1)
    subst this
    obtain ⟨s1, s1', e1, e1', i1, i1', rel1⟩ := greedyFold_rename hg hh r st hi hi' rel (fun t ht => by
      obtain ⟨-, d, d', -, -, -, i, q⟩ := r1.inv hca.lawful
      exact hca.adj hg (i.step_adj t ht))
    obtain ⟨t, t', q1, q2, q3⟩ := ih (fun e he => hc e (by simp [he])) (fun e he => h1 e (by simp [he]))
      (fun e he => h2 e (by simp [he])) i1 i1' rel1
    refine ⟨t, t', ?_, ?_, q3⟩
    · rw [List.map_cons, List.foldlM_cons, k1, e1]; exact q1
    · rw [List.map_cons, List.foldlM_cons, k2, e1']; exact q2

theorem greedy_rename {f : Nat → Nat} {g h : GraphI} (hg : g.Lawful) (hh : h.Lawful) {p0 q0 : Pairing} (hp : GreedyReturns g p0)
    (hq : GreedyReturns h q0) (r : GraphI.Renamed f g h) : ∃ p p' N, (∀ fuel, N ≤ fuel → greedy g fuel = .ok p ∧ greedy h fuel = .ok p') ∧
      p.Matches g ∧ p'.Matches h ∧ ∀ x ∈ g.nodes, p'.get (f x) = (p.get x).map f := by
  obtain ⟨rc, N, hr, h1⟩ := hp.eq hg
  obtain ⟨rc', N', hr', h1'⟩ := hq.eq hh
  have hF := hr.rename hg r hr'
  have step : ∀ fuel, N ≤ fuel → N' ≤ fuel → ∃ s s', greedy g fuel = .ok s.2 ∧ greedy h fuel = .ok s'.2 ∧
      GreedyRel f g s s' ∧ GreedyInv g s ∧ GreedyInv h s' := by
    intro fuel hf hf'
    obtain ⟨s, s', e, e', rel⟩ := foldComponents_rename hg hh r hF hr.comp (h1 fuel hf).2 (h1' fuel hf').2
      (greedyInv_new g) (greedyInv_new h) ⟨rfl, by simp, fun x _ => by simp [Pairing.new, Pairing.get, HMap.get]⟩
    obtain ⟨t, et, it⟩ := foldComponents hg rc hr.comp (h1 fuel hf).2 (greedyInv_new g)
    obtain ⟨t', et', it'⟩ := foldComponents hh rc' hr'.comp (h1' fuel hf').2 (greedyInv_new h)
    rw [e] at et; injection et with et; subst et
    rw [e'] at et'; injection et' with et'; subst et'
    exact ⟨s, s', by rw [(h1 fuel hf).1, e]; rfl, by rw [(h1' fuel hf').1, e']; rfl, rel, it, it'⟩
  obtain ⟨s, s', e, e', rel, i, i'⟩ := step (max N N') (by omega) (by omega)
  refine ⟨s.2, s'.2, max N N', fun fuel hf => ⟨?_, ?_⟩, matches_of i.sym i.adj, matches_of i'.sym i'.adj, rel.get⟩
  · exact (greedy_le hf).eq e (by simp)
  · exact (greedy_le hf).eq e' (by simp)

end Gamma
