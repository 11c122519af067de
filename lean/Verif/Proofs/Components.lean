import Verif.Props.Traversal
import Verif.Proofs.AnyGraph
/-
`components`: the invariant of the iterator.
-/
namespace Gamma

/-- A family of iterators that agree on the states met runs until it stops. -/
theorem exists_traces {ι σ α : Type} {nx : ι → σ → Out (Option α × σ)} (Inv Stop : List α → σ → Prop)
    (μ : σ → Nat)
    (step : ∀ l s, Inv l s → Stop l s ∨
      ∃ a s', (∀ i, nx i s = .ok (some a, s')) ∧ Inv (l ++ [a]) s' ∧ μ s' < μ s)
    (l : List α) (s : σ) (h : Inv l s) :
    ∃ l' s', (∀ i, Trace (nx i) s l' s') ∧ Inv (l ++ l') s' ∧ Stop (l ++ l') s' := by
  induction hm : μ s using Nat.strong_induction_on generalizing l s with
  | _ m ih =>
    subst hm
    rcases step l s h with h1 | ⟨a, s', h1, h2, h3⟩
    · exact ⟨[], s, fun i => .nil s, by simpa using h, by simpa using h1⟩
    · obtain ⟨l', s1, t, i, st⟩ := ih (μ s') h3 (l ++ [a]) s' h2 rfl
      exact ⟨a :: l', s1, fun j => .cons _ _ _ _ _ (h1 j) (t j), by simpa using i, by simpa using st⟩

theorem endsAfter_of_trace' {σ α : Type} {next : σ → Out (Option α × σ)} {s s' s'' : σ} {l : List α}
    (h : Trace next s l s') (h1 : next s' = .ok (none, s'')) (h2 : next s'' = .ok (none, s'')) :
    EndsAfter next s l := by
  intro n
  induction h generalizing n with
  | nil s =>
    cases n with
    | zero => simp [calls]
    | succ n => simp [calls, h1, calls_none h2, List.replicate_succ]
  | cons s s1 s2 a l hn _ ih =>
    cases n with
    | zero => simp [calls]
    | succ n => simp [calls, hn, ih h1 n]

namespace Components

/-- `c` is what a depth-first traversal of `g` from `root` gives. -/
structure IsComp (g : GraphI) (root : Nat) (c : DefaultGraph) : Prop where
  run : ∃ steps, DepthFirst.Run g root steps ∧ c.nodes = discovered root steps ∧
    c.edges = steps.map Step.pair
  built : c.ReachableNoAdjLoop
  ordered : ∀ v ∈ c.nodes, c.neighbors v = .ok (incident v c.edges)

theorem findRoot_some {visited : List Nat} {iter rest : List Nat} {root : Nat}
    (h : findRoot visited iter = (some root, rest)) :
    ∃ skip, iter = skip ++ root :: rest ∧ (∀ x ∈ skip, x ∈ visited) ∧ root ∉ visited := by
  induction iter with
  | nil => simp [findRoot] at h
  | cons a l ih =>
    simp only [findRoot] at h
    by_cases ha : a ∈ visited
    · simp [ha] at h
      obtain ⟨skip, e, h1, h2⟩ := ih h
      refine ⟨a :: skip, by simp [e], ?_, h2⟩
      intro x hx
      rcases List.mem_cons.1 hx with rfl | hx
      · exact ha
      · exact h1 x hx
    · simp [ha] at h
      obtain ⟨rfl, rfl⟩ := h
      exact ⟨[], by simp, by simp, ha⟩

theorem findRoot_none {visited : List Nat} {iter rest : List Nat}
    (h : findRoot visited iter = (none, rest)) : rest = [] ∧ ∀ x ∈ iter, x ∈ visited := by
  induction iter with
  | nil => simp [findRoot] at h; simp [h]
  | cons a l ih =>
    simp only [findRoot] at h
    by_cases ha : a ∈ visited
    · simp [ha] at h
      obtain ⟨e, h1⟩ := ih h
      refine ⟨e, ?_⟩
      intro x hx
      rcases List.mem_cons.1 hx with rfl | hx
      · exact ha
      · exact h1 x hx
    · simp [ha] at h

theorem before_mem {l l' : List Nat} {x r : Nat} (hnd : (l ++ r :: l').Nodup)
    (h : [x, r].Sublist (l ++ r :: l')) : x ∈ l := by
  rw [List.nodup_append] at hnd
  obtain ⟨-, h2, h3⟩ := hnd
  have hr : r ∉ l' := (List.nodup_cons.1 h2).1
  induction l with
  | nil =>
    exfalso
    simp only [List.nil_append] at h
    rcases List.sublist_cons_iff.1 h with h4 | ⟨t, e, h4⟩
    · exact hr (h4.subset (by simp))
    · injection e with e1 e2
      subst e2
      exact hr (h4.subset (by simp))
  | cons a l ih =>
    rw [List.cons_append] at h
    rcases List.sublist_cons_iff.1 h with h4 | ⟨t, e, h4⟩
    · exact List.mem_cons_of_mem _ (ih h4 (fun y hy z hz => h3 y (by simp [hy]) z hz))
    · injection e with e1 e2
      subst e1; simp

/-- The invariant: `rc` are the roots and the components yielded so far. -/
structure Inv' (g : GraphI) (rc : List (Nat × DefaultGraph)) (c : Components) : Prop where
  split : ∃ done, g.nodes = done ++ c.iter ∧ (rc.map Prod.fst).Sublist done ∧ ∀ x ∈ done, x ∈ c.visited
  comp : ∀ e ∈ rc, IsComp g e.1 e.2
  visited : ∀ x, x ∈ c.visited ↔ ∃ e ∈ rc, x ∈ e.2.nodes
  fresh : rc.Pairwise (fun a b => b.1 ∉ a.2.nodes)
  earlier : ∀ l e l', rc = l ++ e :: l' → ∀ x, [x, e.1].Sublist g.nodes → ∃ e' ∈ l, x ∈ e'.2.nodes

def Inv (g : GraphI) (cs : List DefaultGraph) (c : Components) : Prop :=
  ∃ rc : List (Nat × DefaultGraph), cs = rc.map Prod.snd ∧ Inv' g rc c

theorem inv_new (g : GraphI) : Inv g [] (new g) :=
  ⟨[], rfl, ⟨[], by simp [new], by simp, by simp⟩, by simp, by simp [new], by simp, by simp⟩

theorem IsComp.root_mem {g : GraphI} {root : Nat} {c : DefaultGraph} (h : IsComp g root c) :
    root ∈ c.nodes := by
  obtain ⟨st, -, e, -⟩ := h.run
  rw [e]; simp [discovered]

/-- The next traversal `components` makes reports a self-loop twice: `root` is the first node not covered by the
components yielded so far. -/
structure Clash (g : GraphI) (rc : List (Nat × DefaultGraph)) (root : Nat) : Prop where
  node : root ∈ g.nodes
  first : ∀ x, [x, root].Sublist g.nodes → ∃ e ∈ rc, x ∈ e.2.nodes
  fresh : ∀ e ∈ rc, root ∉ e.2.nodes
  twice : ∃ steps, DepthFirst.Run g root steps ∧ ¬ LoopsOnce steps

theorem Inv.next {g : GraphI} (hg : g.Directed) {N : Nat}
    (hN : ∀ root ∈ g.nodes, ∀ steps, DepthFirst.Run g root steps → steps.length < N)
    (cs : List DefaultGraph) (c : Components) (h : Inv g cs c) :
    ((∃ c'', (∀ x ∈ c.iter, x ∈ c.visited) ∧ ∀ i : {f : Nat // N ≤ f},
      Components.next g i.1 c = .ok (none, c'') ∧ Components.next g i.1 c'' = .ok (none, c'')) ∨
    (∃ rc root, cs = rc.map Prod.snd ∧ Inv' g rc c ∧ Clash g rc root ∧
      ∀ i : {f : Nat // N ≤ f}, Components.next g i.1 c = .panic "traversal error")) ∨
    ∃ a c', (∀ i : {f : Nat // N ≤ f}, Components.next g i.1 c = .ok (some a, c')) ∧
      Inv g (cs ++ [a]) c' ∧ c'.iter.length < c.iter.length := by
  obtain ⟨rc, rfl, hi⟩ := h
  obtain ⟨done, hd1, hd2, hd3⟩ := hi.split
  cases hf : findRoot c.visited c.iter with
  | mk o rest =>
    cases o with
    | none =>
      left; left
      obtain ⟨rfl, h2⟩ := findRoot_none hf
      refine ⟨{ c with iter := [] }, h2, fun i => ⟨?_, ?_⟩⟩
      · simp [Components.next, hf]
      · simp [Components.next, findRoot]
    | some root =>
      obtain ⟨skip, e, h1, h2⟩ := findRoot_some hf
      have hr : root ∈ g.nodes := by rw [hd1, e]; simp
      obtain ⟨d, st, hdn, hst, conv, fails⟩ := DepthFirst.directed_convert hg hr
      by_cases hl : LoopsOnce st
      swap
      · left; right
        obtain ⟨v, -, r4⟩ := fails hl
        refine ⟨rc, root, rfl, hi, ⟨hr, fun x hx => ?_, fun a ha hc => h2 ((hi.visited root).2 ⟨a, ha, hc⟩), st, hst, hl⟩, ?_⟩
        · rw [← hi.visited]
          have hn : g.nodes = (done ++ skip) ++ root :: rest := by rw [hd1, e]; simp
          have hx' : x ∈ done ++ skip := by
            have hnd := hg.nodes_nodup
            rw [hn] at hx hnd
            exact before_mem hnd hx
          rcases List.mem_append.1 hx' with h3 | h3
          · exact hd3 x h3
          · exact h1 x h3
        · intro i
          have := hN root hr st hst
          simp [Components.next, hf, hdn, r4 i.1 (by have := i.2; omega)]
      right
      obtain ⟨r, r1, r2, r3, r5, r4⟩ := conv hl
      have hnext : ∀ i : {f : Nat // N ≤ f}, Components.next g i.1 c =
          if r.isEmpty then
            (r.addNodeQ root).expect "add root to empty graph" >>= fun component1 =>
              .ok (some component1, { visited := root :: c.visited, iter := rest })
          else
            .ok (some r,
              { visited := r.nodes.reverse ++ (root :: c.visited), iter := rest }) := by
        intro i
        have := hN root hr st hst
        simp [Components.next, hf, hdn, r4 i.1 (by have := i.2; omega)]
      have hlen : rest.length < c.iter.length := by rw [e]; simp; omega
      -- the component found
      have main : ∃ comp vis, (∀ i : {f : Nat // N ≤ f}, Components.next g i.1 c =
            .ok (some comp, { visited := vis, iter := rest })) ∧ IsComp g root comp ∧
          (∀ x, x ∈ vis ↔ x ∈ c.visited ∨ x ∈ comp.nodes) := by
        by_cases hs : st = []
        · subst hs
          simp at r2 r3
          have hE : r.isEmpty = true := by
            rw [(C03_counts r r1.reachable).2.2.1, r2]
          have hno : r.hasNode root = false := by
            have := ((C03_counts r r1.reachable).2.2.2.2.1 root).not
            rw [r2] at this
            simpa using this
          obtain ⟨c1, c2, c3, c4⟩ := (C01_add_node r r1.reachable root).2 hno
          have q : r.addNodeQ root = .ok (r.addNode root).1 := by
            simp [DefaultGraph.addNodeQ, c1]
          refine ⟨(r.addNode root).1, root :: c.visited, ?_, ⟨⟨[], hst, ?_, ?_⟩, .addNode _ _ r1, ?_⟩, ?_⟩
          · intro i; rw [hnext i, hE, q]; rfl
          · rw [c2, r2]; simp [discovered]
          · rw [c3, r3]; simp
          · intro v hv
            rw [c2, r2] at hv
            simp at hv
            subst hv
            rw [c3, r3]
            simpa [incident] using c4.1
          · intro x; rw [c2, r2]; simp [or_comm]
        · simp [hs] at r2
          have hE : r.isEmpty = false := by
            rw [← Bool.not_eq_true, (C03_counts r r1.reachable).2.2.1, r2]; simp [discovered]
          refine ⟨r, r.nodes.reverse ++ (root :: c.visited), ?_, ⟨⟨st, hst, r2, r3⟩, r1, fun v hv => by rw [r3]; exact r5 v hv⟩, ?_⟩
          · intro i; rw [hnext i, hE]; rfl
          · intro x
            have : root ∈ r.nodes := by rw [r2]; simp [discovered]
            simp only [List.mem_append, List.mem_reverse, List.mem_cons]
            constructor
            · rintro (h | rfl | h)
              · exact .inr h
              · exact .inr this
              · exact .inl h
            · rintro (h | h)
              · exact .inr (.inr h)
              · exact .inl h
      obtain ⟨comp, vis, m1, m2, m3⟩ := main
      refine ⟨comp, _, m1, ⟨rc ++ [(root, comp)], by simp, ?_, ?_, ?_, ?_, ?_⟩, hlen⟩
      · refine ⟨done ++ skip ++ [root], by rw [hd1, e]; simp, ?_, ?_⟩
        · simp only [List.map_append, List.map_cons, List.map_nil, List.append_assoc]
          exact hd2.append ((List.nil_sublist skip).append (List.Sublist.refl [root]))
        · intro x hx
          rw [m3]
          simp only [List.mem_append, List.mem_singleton] at hx
          rcases hx with (hx | hx) | rfl
          · exact .inl (hd3 x hx)
          · exact .inl (h1 x hx)
          · exact .inr m2.root_mem
      · intro a ha
        rcases List.mem_append.1 ha with ha | ha
        · exact hi.comp a ha
        · simp at ha; subst ha; exact m2
      · intro x
        rw [m3, hi.visited]
        simp only [List.mem_append, List.mem_singleton]
        constructor
        · rintro (⟨a, ha, hx⟩ | hx)
          · exact ⟨a, .inl ha, hx⟩
          · exact ⟨(root, comp), .inr rfl, hx⟩
        · rintro ⟨a, ha | rfl, hx⟩
          · exact .inl ⟨a, ha, hx⟩
          · exact .inr hx
      · rw [List.pairwise_append]
        refine ⟨hi.fresh, by simp, ?_⟩
        intro a ha b hb
        simp at hb; subst hb
        intro hc
        exact h2 ((hi.visited root).2 ⟨a, ha, hc⟩)
      · intro l e' l' he x hx
        rcases List.eq_nil_or_concat l' with rfl | ⟨l'', y, rfl⟩
        · have := List.append_inj' he (by simp)
          obtain ⟨rfl, e2⟩ := this
          simp at e2; subst e2
          rw [← hi.visited]
          simp only at hx
          have hn : g.nodes = (done ++ skip) ++ root :: rest := by rw [hd1, e]; simp
          have hx' : x ∈ done ++ skip := by
            have hnd := hg.nodes_nodup
            rw [hn] at hx hnd
            exact before_mem hnd hx
          rcases List.mem_append.1 hx' with h3 | h3
          · exact hd3 x h3
          · exact h1 x h3
        · rw [List.concat_eq_append] at he
          have he' : rc ++ [(root, comp)] = (l ++ e' :: l'') ++ [y] := by rw [he]; simp
          have := List.append_inj' he' (by simp)
          exact hi.earlier l e' l'' this.1 x hx

/-- What `components` yields: the list of (first node, component). -/
structure Result (g : GraphI) (rc : List (Nat × DefaultGraph)) : Prop where
  roots : (rc.map Prod.fst).Sublist g.nodes
  comp : ∀ e ∈ rc, IsComp g e.1 e.2
  cover : ∀ x ∈ g.nodes, ∃ e ∈ rc, x ∈ e.2.nodes
  fresh : rc.Pairwise (fun a b => b.1 ∉ a.2.nodes)
  earlier : ∀ l e l', rc = l ++ e :: l' → ∀ x, [x, e.1].Sublist g.nodes → ∃ e' ∈ l, x ∈ e'.2.nodes

/-- `components` either yields everything, or yields some components and then panics. -/
theorem run_or {g : GraphI} (hg : g.Directed) :
    ∃ rc N c', ((∃ c'', Result g rc ∧ ∀ fuel, N ≤ fuel →
      Trace (Components.next g fuel) (new g) (rc.map Prod.snd) c' ∧
      Components.next g fuel c' = .ok (none, c'') ∧ Components.next g fuel c'' = .ok (none, c'')) ∨
    (∃ root, Inv' g rc c' ∧ Clash g rc root ∧ ∀ fuel, N ≤ fuel →
      Trace (Components.next g fuel) (new g) (rc.map Prod.snd) c' ∧
      Components.next g fuel c' = .panic "traversal error")) := by
  obtain ⟨N, hN⟩ := directed_bound hg
  obtain ⟨l, c', h1, h2, h3⟩ := exists_traces
    (nx := fun (i : {f : Nat // N ≤ f}) => Components.next g i.1) (Inv g) _ (fun c => c.iter.length)
    (fun cs c h => Inv.next hg hN cs c h) [] (new g) (inv_new g)
  rcases h3 with ⟨c'', hall, h3⟩ | ⟨rc, root, e, h4, h5, h6⟩
  · obtain ⟨rc, e, hi⟩ := h2
    simp at e; subst e
    obtain ⟨done, d1, d2, d3⟩ := hi.split
    refine ⟨rc, N, c', .inl ⟨c'', ⟨?_, hi.comp, ?_, hi.fresh, hi.earlier⟩, fun fuel hf => ⟨h1 ⟨fuel, hf⟩, h3 ⟨fuel, hf⟩⟩⟩⟩
    · rw [d1]; exact d2.trans (List.sublist_append_left _ _)
    · intro x hx
      rw [← hi.visited]
      rw [d1, List.mem_append] at hx
      rcases hx with hx | hx
      · exact d3 x hx
      · exact hall x hx
  · simp at e; subst e
    exact ⟨rc, N, c', .inr ⟨root, h4, h5, fun fuel hf => ⟨h1 ⟨fuel, hf⟩, h6 ⟨fuel, hf⟩⟩⟩⟩

theorem Clash.not_noDoubleLoop {g : GraphI} (hg : g.Lawful) {rc : List (Nat × DefaultGraph)} {root : Nat}
    (h : Clash g rc root) : ¬ g.NoDoubleLoop := by
  intro hl
  obtain ⟨st, hst, h1⟩ := h.twice
  exact h1 (hst.loopsOnce hg hl)

theorem run {g : GraphI} (hg : g.Lawful) (hl : g.NoDoubleLoop) :
    ∃ rc N c' c'', Result g rc ∧ ∀ fuel, N ≤ fuel →
      Trace (Components.next g fuel) (new g) (rc.map Prod.snd) c' ∧
      Components.next g fuel c' = .ok (none, c'') ∧ Components.next g fuel c'' = .ok (none, c'') := by
  obtain ⟨rc, N, c', ⟨c'', h1, h2⟩ | ⟨root, -, h, -⟩⟩ := run_or hg.directed
  · exact ⟨rc, N, c', c'', h1, h2⟩
  · exact absurd hl (h.not_noDoubleLoop hg)

theorem calls_panic {σ α : Type} {next : σ → Out (Option α × σ)} {s s' : σ} {l : List α} (h : Trace next s l s') {m : String}
    (he : next s' = .panic m) : calls next (l.length + 1) s = .panic m := by
  induction h with
  | nil s => simp [calls, he]
  | cons s s1 s2 a l hn _ ih => simp only [calls, hn, List.length_cons, Out.ok_bind] at ih ⊢; rw [ih he]; rfl

theorem run_iff {g : GraphI} (hg : g.Directed) {cs : List DefaultGraph}
    (h : Components.Run g cs) : ∃ rc, Result g rc ∧ cs = rc.map Prod.snd := by
  obtain ⟨M, hM⟩ := h
  obtain ⟨rc, N, c', ⟨c'', hr, h1⟩ | ⟨root, -, -, h1⟩⟩ := run_or hg
  · have a := hM (max M N) (by omega)
    obtain ⟨b1, b2, b3⟩ := h1 (max M N) (by omega)
    exact ⟨rc, hr, endsAfter_unique a (endsAfter_of_trace' b1 b2 b3)⟩
  · have a := hM (max M N) (by omega)
    obtain ⟨b1, b2⟩ := h1 (max M N) (by omega)
    have := calls_panic b1 b2
    rw [a] at this; simp at this

theorem exists_run {g : GraphI} (hg : g.Lawful) (hl : g.NoDoubleLoop) : ∃ cs, Components.Run g cs := by
  obtain ⟨rc, N, c', c'', hr, h1⟩ := run hg hl
  exact ⟨_, N, fun fuel hf => endsAfter_of_trace' (h1 fuel hf).1 (h1 fuel hf).2.1 (h1 fuel hf).2.2⟩

/-! ### Structure of one component -/

theorem adj_iff_edges {c : DefaultGraph} (h : c.ReachableNoAdjLoop) {u v : Nat} :
    c.toI.Adj u v ↔ (u, v) ∈ c.edges ∨ (v, u) ∈ c.edges := by
  have hl := h.reachable.lawful
  constructor
  · exact h.edgeExact.adj_edges u v
  · rintro (hx | hx)
    · exact hl.edges_adj _ _ hx
    · exact hl.adj_symm _ _ (hl.edges_adj _ _ hx)

section
variable {g : GraphI} {root : Nat} {c : DefaultGraph}

theorem IsComp.lawful (h : IsComp g root c) : c.toI.Lawful := h.built.reachable.lawful

theorem IsComp.adj (hg : g.Lawful) (h : IsComp g root c) {u v : Nat} (ha : c.toI.Adj u v) : g.Adj u v := by
  obtain ⟨st, hr, e1, e2⟩ := h.run
  obtain ⟨-, d, d', -, -, -, i, q⟩ := hr.inv hg
  rw [adj_iff_edges h.built, e2] at ha
  rcases ha with ha | ha
  · obtain ⟨s, hs, e⟩ := List.mem_map.1 ha
    simp [Step.pair] at e
    have := i.step_adj s hs
    rwa [e.1, e.2] at this
  · obtain ⟨s, hs, e⟩ := List.mem_map.1 ha
    simp [Step.pair] at e
    have := i.step_adj s hs
    rw [e.1, e.2] at this
    exact hg.adj_symm _ _ this

theorem IsComp.reachable (hg : g.Lawful) (h : IsComp g root c) {v : Nat} (hv : v ∈ c.nodes) :
    g.simple.Reachable root v := by
  obtain ⟨st, hr, e1, e2⟩ := h.run
  rw [e1] at hv
  exact (C22_dfs_sound g hg root st hr).2.2 v hv

theorem IsComp.nodes (hg : g.Lawful) (h : IsComp g root c) {v : Nat} (hv : v ∈ c.nodes) : v ∈ g.nodes := by
  obtain ⟨st, hr, e1, e2⟩ := h.run
  obtain ⟨hroot, d, d', -, -, -, i, q⟩ := hr.inv hg
  rw [e1, mem_discovered] at hv
  rcases hv with rfl | ⟨s, hs, -, rfl⟩
  · exact hroot
  · exact hg.adj_mem _ _ (i.step_adj s hs)

theorem IsComp.connected (hg : g.Lawful) (h : IsComp g root c) {v : Nat} (hv : v ∈ c.nodes) :
    c.toI.simple.Reachable root v := by
  obtain ⟨st, hr, e1, e2⟩ := h.run
  obtain ⟨-, d, d', -, -, -, i, q⟩ := hr.inv hg
  rw [e1] at hv
  refine i.truth.reachable_in c.toI.simple ?_ v hv
  intro s hs hc
  rw [h.lawful.simple_adj]
  refine ⟨i.truth.ne hs hc, ?_⟩
  rw [adj_iff_edges h.built, e2]
  exact .inl (List.mem_map.2 ⟨s, hs, rfl⟩)

theorem IsComp.head (h : IsComp g root c) : c.nodes.head? = some root := by
  obtain ⟨st, hr, e1, e2⟩ := h.run
  rw [e1]; simp [discovered]

theorem IsComp.simple_le (hg : g.Lawful) (h : IsComp g root c) : c.toI.simple ≤ g.simple := by
  intro u v ha
  rw [h.lawful.simple_adj] at ha
  rw [hg.simple_adj]
  exact ⟨ha.1, h.adj hg ha.2⟩

end

/-- The depth-first traversal of `g` from `root` discovers the whole component, and meets all its edges. -/
structure CompleteAt (g : GraphI) (root : Nat) : Prop where
  nodes : ∀ steps, DepthFirst.Run g root steps → ∀ v, g.simple.Reachable root v → v ∈ discovered root steps
  edges : ∀ steps, DepthFirst.Run g root steps → ∀ u ∈ discovered root steps,
    ∀ v ∈ discovered root steps, u ≠ v → g.Adj u v →
    (u, v) ∈ steps.map Step.pair ∨ (v, u) ∈ steps.map Step.pair

theorem of_jc_pos {u v : Nat} {l : List (Nat × Nat)} (h : 1 ≤ DepthFirst.jc u v l) :
    (u, v) ∈ l ∨ (v, u) ∈ l := by
  by_contra hc
  push Not at hc
  rw [DepthFirst.jc_zero hc.1 hc.2] at h
  omega

theorem complete_tame {g : GraphI} (hg : g.Lawful) {root : Nat} (ht : DepthFirst.Tame g root) :
    CompleteAt g root where
  nodes := fun steps h v hv => (C24_dfs_discovers_tame_partial g hg root ht steps h v).2 hv
  edges := by
    intro steps h u hu v hv hne ha
    obtain ⟨d, i, q⟩ := h.inv2 hg
    exact i.tame_edge hg q ht.others hu hv hne ha

section
variable {g : GraphI}

theorem IsComp.mem_iff (hg : g.Lawful) {root : Nat} (hc : CompleteAt g root) {c : DefaultGraph}
    (h : IsComp g root c) {v : Nat} : v ∈ c.nodes ↔ g.simple.Reachable root v := by
  refine ⟨h.reachable hg, fun hv => ?_⟩
  obtain ⟨st, hr, e1, -⟩ := h.run
  rw [e1]; exact hc.nodes st hr v hv

theorem IsComp.adj_iff (hg : g.Lawful) {root : Nat} (hc : CompleteAt g root) {c : DefaultGraph}
    (h : IsComp g root c) {u v : Nat} (hu : u ∈ c.nodes) (hne : u ≠ v) : c.toI.Adj u v ↔ g.Adj u v := by
  refine ⟨h.adj hg, fun ha => ?_⟩
  have hv : v ∈ c.nodes := by
    rw [h.mem_iff hg hc] at hu ⊢
    exact hu.trans (SimpleGraph.Adj.reachable ((hg.simple_adj).2 ⟨hne, ha⟩))
  obtain ⟨st, hr, e1, e2⟩ := h.run
  rw [adj_iff_edges h.built, e2]
  rw [e1] at hu hv
  exact hc.edges st hr u hu v hv hne ha

theorem Result.disjoint (hg : g.Lawful) {rc : List (Nat × DefaultGraph)}
    (hc : ∀ e ∈ rc, CompleteAt g e.1) (h : Result g rc) :
    rc.Pairwise (fun a b => ∀ x ∈ a.2.nodes, x ∉ b.2.nodes) := by
  refine List.Pairwise.imp_of_mem ?_ h.fresh
  intro a b ha hb hne x hxa hxb
  apply hne
  have h1 := (h.comp a ha)
  have h2 := (h.comp b hb)
  rw [h1.mem_iff hg (hc a ha)] at hxa ⊢
  rw [h2.mem_iff hg (hc b hb)] at hxb
  exact hxa.trans hxb.symm

/-- If the traversal is tame from the first node of every component, it is tame from every first node yielded. -/
theorem Result.tame (hg : g.Lawful) {rc : List (Nat × DefaultGraph)} (h : Result g rc)
    (ht : Components.Tame g) :
    ∀ e ∈ rc, DepthFirst.Tame g e.1 := by
  have key : ∀ n, ∀ l e l', l.length = n → rc = l ++ e :: l' → DepthFirst.Tame g e.1 := by
    intro n
    induction n using Nat.strong_induction_on with
    | _ n ih =>
      intro l e l' hn he
      subst hn
      have hem : e ∈ rc := by rw [he]; simp
      refine ht e.1 (h.roots.subset (List.mem_map.2 ⟨e, hem, rfl⟩)) ?_
      intro x hx hreach
      obtain ⟨e', he', hx'⟩ := h.earlier l e l' he x hx
      obtain ⟨l1, l2, rfl⟩ := List.append_of_mem he'
      have ht' := ih l1.length (by simp) l1 e' (l2 ++ e :: l') rfl (by rw [he]; simp)
      have hem' : e' ∈ rc := by rw [he]; simp
      have hc' := h.comp e' hem'
      have h1 : e.1 ∈ e'.2.nodes := by
        rw [hc'.mem_iff hg (complete_tame hg ht')] at hx' ⊢
        exact hx'.trans hreach
      have hf := h.fresh
      rw [he, List.pairwise_append] at hf
      exact hf.2.2 e' he' e (by simp) h1
  intro e he
  obtain ⟨l, l', e'⟩ := List.append_of_mem he
  exact key l.length l e l' rfl e'

/-- The condition carries over from a graph to its component. -/
theorem IsComp.tame (hg : g.Lawful) {root : Nat} {c : DefaultGraph} (h : IsComp g root c)
    (ht : DepthFirst.Tame g root) : DepthFirst.Tame c.toI root := by
  have hc := complete_tame hg ht
  have hle := h.simple_le hg
  have hadj : ∀ u v, u ∈ c.nodes → g.simple.Adj u v → c.toI.simple.Adj u v := by
    intro u v hu ha
    have ha' := (hg.simple_adj).1 ha
    exact (h.lawful.simple_adj).2 ⟨ha'.1, (h.adj_iff hg hc hu ha'.1).2 ha'.2⟩
  have up : ∀ x a b, JoinedAround c.toI x a b → JoinedAround g x a b := by
    rintro x a b ⟨w, hw⟩
    exact ⟨w.mapLe hle, by simpa using hw⟩
  have down : ∀ x a b, a ∈ c.nodes → JoinedAround g x a b → JoinedAround c.toI x a b := by
    rintro x a b ha ⟨w, hw⟩
    have key : ∀ y z (w : g.simple.Walk y z), y ∈ c.nodes → x ∉ w.support →
        ∃ w' : c.toI.simple.Walk y z, x ∉ w'.support := by
      intro y z w
      induction w with
      | nil => intro _ hw; exact ⟨.nil, hw⟩
      | cons had w ih =>
        intro hx hw
        rw [SimpleGraph.Walk.support_cons, List.mem_cons, not_or] at hw
        have h2 := hadj _ _ hx had
        obtain ⟨w', hw'⟩ := ih (h.lawful.adj_mem _ _ ((h.lawful.simple_adj).1 h2).2) hw.2
        refine ⟨.cons h2 w', ?_⟩
        rw [SimpleGraph.Walk.support_cons, List.mem_cons, not_or]
        exact ⟨hw.1, hw'⟩
    exact key a b w ha hw
  have mem : ∀ x y, c.toI.simple.Adj x y → y ∈ c.nodes := fun x y hxy =>
    h.lawful.adj_mem _ _ ((h.lawful.simple_adj).1 hxy).2
  constructor
  · rintro x hne p a z b ⟨hn, ha, w, w', e1, e2, e3, e4⟩
    obtain ⟨h1, h2⟩ := ht.others x hne p a z b ⟨hn, fun y hy => hle (ha y hy), w.mapLe hle, w'.mapLe hle,
      by simpa using e1, by simpa using e2, by simpa using e3, by simpa using e4⟩
    exact ⟨down x a b (mem _ _ (ha a (by simp))) h1, fun h3 => h2 (up _ _ _ h3)⟩
  · intro a z b hn ha hj
    exact down root a b (mem _ _ (ha a (by simp))) (ht.root a z b hn (fun y hy => hle (ha y hy)) (up _ _ _ hj))

end
end Components
end Gamma
