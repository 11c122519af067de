import Verif.Proofs.DfsTame
/-
Depth-first traversal: what becomes of self-loops.
-/
namespace Gamma
namespace DepthFirst
variable {g : GraphI} {root : Nat} {st : List Step} {d : DepthFirst}

theorem pushAll_count_old {visited : List Nat} {p n u : Nat} (hun : u ≠ n) {ns : List Nat} {rest : List (Nat × Nat)}
    (h : ¬ (u ∈ ns ∧ u ≠ p ∧ u ∈ visited)) : (pushAll visited p n ns rest).count (u, u) = rest.count (u, u) := by
  induction ns with
  | nil => rfl
  | cons a ns ih =>
    have ih := ih (by intro ⟨h1, h2⟩; exact h ⟨by simp [h1], h2⟩)
    rw [pushAll_cons]
    unfold pushNeighbor
    by_cases ha : a = p
    · simpa [ha] using ih
    · simp only [beq_iff_eq, ha, if_false]
      rw [List.count_cons_of_ne (by simp [Ne.symm hun])]
      by_cases hv : a ∈ visited
      · have hua : u ≠ a := by rintro rfl; exact h ⟨by simp, ha, hv⟩
        rw [if_pos (by simpa using hv), List.count_filter (by simp [hua, hun])]
        exact ih
      · rw [if_neg (by simpa using hv)]
        exact ih

theorem pushAll_count_new {visited : List Nat} {p n : Nat} (hn : n ∉ visited) (hp : n ≠ p) {ns : List Nat}
    {rest : List (Nat × Nat)} (hr : (n, n) ∉ rest) :
    (pushAll visited p n ns rest).count (n, n) =
      (ns.takeWhile (fun w => w == p || !visited.contains w)).count n := by
  induction ns with
  | nil => simpa [pushAll] using List.count_eq_zero.2 hr
  | cons a ns ih =>
    rw [pushAll_cons, List.takeWhile_cons]
    unfold pushNeighbor
    by_cases ha : a = p
    · subst ha
      simp [ih, List.count_cons_of_ne (Ne.symm hp)]
    · by_cases hv : a ∈ visited
      · have hna : a ≠ n := by rintro rfl; exact hn hv
        simp only [beq_iff_eq, ha, if_false, List.contains_iff_mem, hv, if_true]
        rw [List.count_cons_of_ne (by simp [hna]), List.count_eq_zero.2 (by simp)]
        simp [ha, hv]
      · simp only [beq_iff_eq, ha, if_false, List.contains_iff_mem, hv]
        rw [if_pos (by simp [hv])]
        simp only [List.count_cons, Bool.false_eq_true, if_false, ih]
        congr 1
        simp

/-- The entries for the self-loop at `u` right after its discovery. -/
inductive Owns (g : GraphI) (root : Nat) (st : List Step) (u : Nat) : Nat → Prop
  | root : u = root → Owns g root st u ((g.nbr root).count root)
  | step (pre s post) : st = pre ++ s :: post → s.cut = false → s.tid = u → Owns g root st u (loopsBefore g root pre s.sid u)

structure Inv3 (g : GraphI) (root : Nat) (st : List Step) (d : DepthFirst) : Prop where
  inv : Inv g root st d
  kept : ∀ u k, Owns g root st u k → (∀ pre s post, st = pre ++ s :: post → ¬ Closes g root pre s u) →
    (st.map Step.pair).count (u, u) + d.stack.count (u, u) = k
  lost : ∀ u pre s post, st = pre ++ s :: post → Closes g root pre s u →
    (u, u) ∉ (s :: post).map Step.pair ∧ (u, u) ∉ d.stack

theorem inv3_new (hg : g.Lawful) (root : Nat) :
    Inv3 g root [] { nodes := [root], stack := (g.nbr root).map (fun n => (root, n)) } where
  inv := inv_new hg root
  kept := by
    intro u k ho _
    cases ho with
    | root h => subst h; simp [BreadthFirst.count_map_pair]
    | step pre s post h => simp at h
  lost := by intro u pre s post h; simp at h

theorem snoc_split {α : Type} {st pre post : List α} {x s : α} (h : st ++ [x] = pre ++ s :: post) :
    (st = pre ∧ x = s ∧ post = []) ∨ ∃ post', st = pre ++ s :: post' ∧ post = post' ++ [x] := by
  rcases List.eq_nil_or_concat post with rfl | ⟨post', y, rfl⟩
  · left
    have := List.append_inj' h (by simp)
    simpa using this
  · right
    have e : pre ++ s :: (post' ++ [y]) = (pre ++ s :: post') ++ [y] := by simp
    rw [List.concat_eq_append, e] at h
    have := List.append_inj' h (by simp)
    refine ⟨post', this.1, ?_⟩
    have h2 := this.2
    simp at h2
    simp [h2]

theorem Inv3.step_cut (h : Inv3 g root st d) {p n : Nat} {rest : List (Nat × Nat)} (hq : d.stack = (p, n) :: rest)
    (hv : n ∈ discovered root st) : Inv3 g root (st ++ [⟨p, n, true⟩]) { d with stack := rest } := by
  refine ⟨h.inv.next_cut hq hv, ?_, ?_⟩
  · intro u k ho hc
    have ho' : Owns g root st u k := by
      cases ho with
      | root h => exact .root h
      | step pre s post e h1 h2 =>
        rcases snoc_split e with ⟨-, rfl, -⟩ | ⟨post', e', -⟩
        · simp at h1
        · exact .step pre s post' e' h1 h2
    have := h.kept u k ho' (fun pre s post e => hc pre s (post ++ [⟨p, n, true⟩]) (by simp [e]))
    rw [hq] at this
    rw [← this]
    simp only [List.map_append, List.map_cons, List.map_nil, List.count_append, List.count_cons, List.count_nil, Step.pair]
    omega
  · intro u pre s post e hc
    rcases snoc_split e with ⟨-, rfl, -⟩ | ⟨post', e', rfl⟩
    · simp [Closes] at hc
    · obtain ⟨h1, h2⟩ := h.lost u pre s post' e' hc
      rw [hq] at h2
      simp only [List.mem_cons, not_or] at h2
      refine ⟨?_, h2.2⟩
      intro h3
      have e4 : (s :: (post' ++ [(⟨p, n, true⟩ : Step)])).map Step.pair = (s :: post').map Step.pair ++ [(p, n)] := by
        simp [Step.pair]
      rw [e4, List.mem_append, List.mem_singleton] at h3
      rcases h3 with h3 | h3
      · exact h1 h3
      · exact h2.1 h3

theorem Inv3.step_new (hg : g.Lawful) (h : Inv3 g root st d) {p n : Nat} {rest : List (Nat × Nat)}
    (hq : d.stack = (p, n) :: rest) (hv : n ∉ discovered root st) :
    Inv3 g root (st ++ [⟨p, n, false⟩])
      { nodes := n :: d.nodes, stack := pushAll d.nodes p n (g.nbr n) rest } := by
  have hmem : ∀ x, x ∈ d.nodes ↔ x ∈ discovered root st := by
    intro x; rw [h.inv.nodes, List.mem_reverse]
  have hnn : n ∉ d.nodes := by rw [hmem]; exact hv
  have hpn : p ∈ discovered root st := (h.inv.stack_mem (p, n) (by rw [hq]; simp)).1
  have hnp : n ≠ p := by rintro rfl; exact hv hpn
  have hrest : (n, n) ∉ rest := fun hc => hv (h.inv.stack_mem (n, n) (by rw [hq]; simp [hc])).1
  have hsteps : (n, n) ∉ st.map Step.pair := by
    intro hc
    obtain ⟨s, hs, e⟩ := List.mem_map.1 hc
    have := h.inv.truth.sid_mem hs
    simp only [Step.pair, Prod.mk.injEq] at e
    rw [e.1] at this; exact hv this
  refine ⟨h.inv.next_new hg hq hv, ?_, ?_⟩
  · intro u k ho hc
    by_cases hun : u = n
    · subst hun
      have e0 : ((st ++ [(⟨p, u, false⟩ : Step)]).map Step.pair).count (u, u) = 0 := by
        rw [List.count_eq_zero]
        simp only [List.map_append, List.map_cons, List.map_nil, List.mem_append, List.mem_singleton, Step.pair,
          Prod.mk.injEq, not_or]
        exact ⟨hsteps, fun e => hnp e.1⟩
      rw [e0, Nat.zero_add, pushAll_count_new hnn hnp hrest]
      cases ho with
      | root h0 => exact absurd (by rw [h0]; simp [discovered]) hv
      | step pre s post e h1 h2 =>
        rcases snoc_split e with ⟨rfl, rfl, -⟩ | ⟨post', e', -⟩
        · unfold loopsBefore
          simp only [h.inv.nodes, List.contains_reverse]
        · exfalso
          apply hv
          rw [← h2]
          exact h.inv.truth.tid_mem (by rw [e']; simp)
    · have ho' : Owns g root st u k := by
        cases ho with
        | root h => exact .root h
        | step pre s post e h1 h2 =>
          rcases snoc_split e with ⟨-, rfl, -⟩ | ⟨post', e', -⟩
          · exact absurd h2.symm hun
          · exact .step pre s post' e' h1 h2
      have hud : u ∈ discovered root st := by
        cases ho' with
        | root h => rw [h]; simp [discovered]
        | step pre s post e h1 h2 => rw [← h2]; exact h.inv.truth.tid_mem (by rw [e]; simp)
      have := h.kept u k ho' (fun pre s post e => hc pre s (post ++ [⟨p, n, false⟩]) (by simp [e]))
      have hcl := hc st ⟨p, n, false⟩ [] rfl
      rw [pushAll_count_old hun, ← this, hq]
      · simp only [List.map_append, List.map_cons, List.map_nil, List.count_append, List.count_cons, List.count_nil, Step.pair]
        omega
      · rintro ⟨h1, h2, -⟩
        exact hcl ⟨rfl, hud, Ne.symm h2, GraphI.mem_nbr.1 h1⟩
  · intro u pre s post e hc
    rcases snoc_split e with ⟨rfl, rfl, rfl⟩ | ⟨post', e', rfl⟩
    · obtain ⟨-, h1, h2, h3⟩ := hc
      have hun : u ≠ n := by rintro rfl; exact hv h1
      refine ⟨?_, fun h4 => ?_⟩
      · simp [Step.pair]
        rintro rfl; exact hun
      · exact (pushAll_kept h4 hun (w := u) (GraphI.mem_nbr.2 h3) (Ne.symm h2) ((hmem u).2 h1)).1 rfl
    · obtain ⟨h1, h2⟩ := h.lost u pre s post' e' hc
      have hun : u ≠ n := by
        rintro rfl
        apply hv
        rw [e']
        exact discovered_mono hc.2.1
      rw [hq] at h2
      simp only [List.mem_cons, not_or] at h2
      refine ⟨?_, ?_⟩
      · intro h3
        have e4 : (s :: (post' ++ [(⟨p, n, false⟩ : Step)])).map Step.pair = (s :: post').map Step.pair ++ [(p, n)] := by
          simp [Step.pair]
        rw [e4, List.mem_append, List.mem_singleton] at h3
        rcases h3 with h3 | h3
        · exact h1 h3
        · exact h2.1 h3
      · intro h3
        rcases pushAll_mem h3 with h3 | h3
        · exact hun h3.1
        · exact h2.2 h3

theorem Inv3.next (hg : g.Lawful) (h : Inv3 g root st d) :
    DepthFirst.next g d = .ok (none, d) ∨
    ∃ s d', DepthFirst.next g d = .ok (some s, d') ∧ Inv3 g root (st ++ [s]) d' ∧
      measure g d' < measure g d := by
  rcases h.inv.next hg with h1 | ⟨s, d', h1, h2, h3⟩
  · exact .inl h1.1
  · right
    refine ⟨s, d', h1, ?_, h3⟩
    cases hq : d.stack with
    | nil => simp [DepthFirst.next, hq] at h1
    | cons e rest =>
      obtain ⟨p, n⟩ := e
      have hmem : ∀ x, x ∈ d.nodes ↔ x ∈ discovered root st := by
        intro x; rw [h.inv.nodes, List.mem_reverse]
      by_cases hv : n ∈ d.nodes
      · simp [DepthFirst.next, hq, hv] at h1
        obtain ⟨rfl, rfl⟩ := h1
        exact h.step_cut hq ((hmem n).1 hv)
      · have hn : n ∈ g.nodes := hg.adj_mem _ _ (h.inv.stack_mem (p, n) (by rw [hq]; simp)).2
        simp only [DepthFirst.next, hq] at h1
        simp only [List.contains_iff_mem, hv, Bool.false_eq_true, if_false, hg.neighbors_eq hn, Out.expect_ok,
          Out.ok_bind, foldl_reverse_push, Out.ok.injEq, Prod.mk.injEq, Option.some.injEq] at h1
        obtain ⟨rfl, rfl⟩ := h1
        exact h.step_new hg hq (by rw [← hmem]; exact hv)

theorem Run.inv3 (hg : g.Lawful) {steps : List Step} (h : DepthFirst.Run g root steps) :
    ∃ d, Inv3 g root steps d ∧ d.stack = [] := by
  obtain ⟨hr, d, d', e, t, he, i, q⟩ := h.inv hg
  obtain ⟨l, d'', t', e', i'⟩ := exists_trace (next := DepthFirst.next g) (Inv3 g root) (measure g)
    (fun l s h => h.next hg) [] _ (inv3_new hg root)
  rw [new_eq hg hr] at e; injection e with e; subst e
  have := endsAfter_unique (endsAfter_of_trace t he) (endsAfter_of_trace t' e')
  subst this
  refine ⟨d'', by simpa using i', ?_⟩
  rcases i'.inv.next hg with ⟨-, h⟩ | ⟨s, d3, h, -⟩
  · exact h
  · rw [e'] at h; simp at h

/-- A discovery that meets a discovered node closes a cycle through both. -/
theorem Inv.closes (hg : g.Lawful) (h : Inv g root st d) {pre post : List Step} {s : Step} (e : st = pre ++ s :: post)
    {u : Nat} (hc : Closes g root pre s u) : OnCycle g u ∧ OnCycle g s.tid := by
  obtain ⟨hcut, hu, hsu, hadj⟩ := hc
  have htr : Truthful root pre := by
    intro p x q e'
    exact h.truth p x (q ++ s :: post) (by rw [e, e']; simp)
  have ht := h.truth pre s post e
  have hs : s ∈ st := by rw [e]; simp
  have hn : s.tid ∉ discovered root pre := by
    intro hx; have := ht.2.2 hx; rw [hcut] at this; simp at this
  have hnu : s.tid ≠ u := fun e => hn (e ▸ hu)
  have hsub : ∀ t ∈ pre, t ∈ st := fun t ht => by rw [e]; simp [ht]
  have hadj' : g.simple.Adj u s.tid := (hg.simple_adj).2 ⟨Ne.symm hnu, hg.adj_symm _ _ hadj⟩
  have key := htr.reachable_in (g.simple \ SimpleGraph.fromEdgeSet {s(u, s.tid)}) (by
    intro t ht1 ht2
    rw [SimpleGraph.sdiff_adj]
    refine ⟨(hg.simple_adj).2 ⟨h.truth.ne (hsub t ht1) ht2, h.step_adj t (hsub t ht1)⟩, ?_⟩
    rw [SimpleGraph.fromEdgeSet_adj]
    rintro ⟨h1, -⟩
    have h1 : s(t.sid, t.tid) = s(u, s.tid) := by simpa using h1
    rw [Sym2.eq_iff] at h1
    rcases h1 with h1 | h1
    · exact hn (h1.2 ▸ htr.tid_mem ht1)
    · exact hn (h1.1 ▸ htr.sid_mem ht1))
  have hlast : (g.simple \ SimpleGraph.fromEdgeSet {s(u, s.tid)}).Adj s.sid s.tid := by
    rw [SimpleGraph.sdiff_adj]
    refine ⟨(hg.simple_adj).2 ⟨h.truth.ne hs hcut, h.step_adj s hs⟩, ?_⟩
    rw [SimpleGraph.fromEdgeSet_adj]
    rintro ⟨h1, -⟩
    have h1 : s(s.sid, s.tid) = s(u, s.tid) := by simpa using h1
    rw [Sym2.eq_iff] at h1
    rcases h1 with h1 | h1
    · exact hsu h1.1
    · exact hnu h1.2
  have hreach := ((key _ hu).symm.trans (key _ ht.1)).trans hlast.reachable
  refine ⟨onCycle_of_reachable hadj' hreach, onCycle_of_reachable hadj'.symm ?_⟩
  rw [Sym2.eq_swap]
  exact hreach.symm

theorem takeWhile_self {α : Type} {p : α → Bool} {l : List α} (h : ∀ x ∈ l, p x = true) : l.takeWhile p = l := by
  induction l with
  | nil => rfl
  | cons a l ih => rw [List.takeWhile_cons, if_pos (h a (by simp)), ih (fun x hx => h x (by simp [hx]))]

/-- The self-loops at a node on no cycle are reported as often as they are listed. -/
theorem Run.loops_full (hg : g.Lawful) {steps : List Step} (h : DepthFirst.Run g root steps) {u : Nat}
    (hu : u ∈ discovered root steps) (hc : ¬ OnCycle g u) :
    (steps.map Step.pair).count (u, u) = (g.nbr u).count u := by
  obtain ⟨d, i, q⟩ := h.inv3 hg
  have hno : ∀ pre s post, steps = pre ++ s :: post → ¬ Closes g root pre s u :=
    fun pre s post e hcl => hc (i.inv.closes hg e hcl).1
  rcases mem_discovered.1 hu with rfl | ⟨s, hs, hcut, rfl⟩
  · have := i.kept u _ (.root rfl) hno
    rw [q] at this
    simpa using this
  · obtain ⟨pre, post, e⟩ := List.append_of_mem hs
    have := i.kept s.tid _ (.step pre s post e hcut rfl) hno
    rw [q] at this
    rw [show (steps.map Step.pair).count (s.tid, s.tid) = _ by simpa using this]
    unfold loopsBefore
    congr 1
    refine takeWhile_self fun w hw => ?_
    by_contra hcon
    simp only [Bool.or_eq_true, beq_iff_eq, Bool.not_eq_true', List.contains_eq_mem, decide_eq_false_iff_not, not_or,
      not_not] at hcon
    exact hc (i.inv.closes hg e ⟨hcut, hcon.2, Ne.symm hcon.1, GraphI.mem_nbr.1 hw⟩).2

end DepthFirst
end Gamma
