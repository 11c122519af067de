import Verif.Proofs.RunLemmas
/-
Traversals of any implementation of `Graph`: nothing is assumed of the graph.
-/
namespace Gamma

section iter
variable {σ α : Type} {next : σ → Out (Option α × σ)}

/-- An iterator whose states carry an invariant and a decreasing measure runs to its end, or gets stuck. -/
theorem trace_or (Inv : List α → σ → Prop) (Bad : List α → σ → Prop) (μ : σ → Nat)
    (step : ∀ l s, Inv l s → (next s = .ok (none, s)) ∨
      (∃ a s', next s = .ok (some a, s') ∧ Inv (l ++ [a]) s' ∧ μ s' < μ s) ∨ Bad l s)
    (l : List α) (s : σ) (h : Inv l s) :
    ∃ l' s', Trace next s l' s' ∧ Inv (l ++ l') s' ∧ (next s' = .ok (none, s') ∨ Bad (l ++ l') s') := by
  induction hm : μ s using Nat.strong_induction_on generalizing l s with
  | _ m ih =>
    subst hm
    rcases step l s h with h1 | ⟨a, s', h1, h2, h3⟩ | h1
    · exact ⟨[], s, .nil s, by simpa using h, .inl h1⟩
    · obtain ⟨l', s'', t, i, e⟩ := ih (μ s') h3 (l ++ [a]) s' h2 rfl
      exact ⟨a :: l', s'', .cons _ _ _ _ _ h1 t, by simpa using i, by simpa using e⟩
    · exact ⟨[], s, .nil s, by simpa using h, .inr (by simpa using h1)⟩

/-- An invariant is kept along a trace. -/
theorem Trace.inv (Inv : List α → σ → Prop)
    (step : ∀ l s a s', Inv l s → next s = .ok (some a, s') → Inv (l ++ [a]) s')
    {s s' : σ} {l' : List α} (t : Trace next s l' s') (l : List α) (h : Inv l s) : Inv (l ++ l') s' := by
  induction t generalizing l with
  | nil => simpa using h
  | cons s s1 s2 a l1 hn _ ih =>
    have := ih (l ++ [a]) (step _ _ _ _ h hn)
    simpa using this

/-- What the first calls return tells how the iterator ran. -/
theorem calls_ok (hnone : ∀ s s', next s = .ok (none, s') → s' = s) {n : Nat} {s : σ} {os : List (Option α)}
    (h : calls next n s = .ok os) :
    ∃ l s', Trace next s l s' ∧ os = l.map some ++ List.replicate (n - l.length) none ∧ l.length ≤ n ∧
      (l.length < n → next s' = .ok (none, s')) := by
  induction n generalizing s os with
  | zero => simp [calls] at h; subst h; exact ⟨[], s, .nil s, by simp, by simp, by simp⟩
  | succ n ih =>
    simp only [calls] at h
    rw [Out.bind_eq_ok] at h
    obtain ⟨⟨o, s1⟩, h1, h2⟩ := h
    cases o with
    | none =>
      obtain rfl := hnone _ _ h1
      have := calls_none h1 n
      simp only at h2
      rw [this] at h2
      simp at h2
      refine ⟨[], s1, .nil s1, ?_, by simp, fun _ => h1⟩
      simp [← h2, List.replicate_succ]
    | some a =>
      rw [Out.bind_eq_ok] at h2
      obtain ⟨os', h2, h3⟩ := h2
      obtain ⟨l, s', t, e, e2, e3⟩ := ih h2
      simp at h3
      refine ⟨a :: l, s', .cons _ _ _ _ _ h1 t, ?_, by simp; exact e2, fun hl => e3 (by simpa using hl)⟩
      rw [← h3, e]; simp

theorem calls_trace {s s' : σ} {l : List α} (t : Trace next s l s') : calls next l.length s = .ok (l.map some) := by
  induction t with
  | nil => rfl
  | cons s s1 s2 a l hn _ ih => simp [calls, hn, ih]

theorem calls_trace_one {s s' s'' : σ} {l : List α} (t : Trace next s l s') {o : Option α} (h : next s' = .ok (o, s'')) :
    calls next (l.length + 1) s = .ok (l.map some ++ [o]) := by
  induction t with
  | nil => simp [calls, h]
  | cons s s1 s2 a l hn _ ih =>
    rw [List.length_cons, calls, hn, Out.ok_bind]
    rw [ih h]; rfl

theorem calls_trace_fail {s s' : σ} {l : List α} (t : Trace next s l s') {m : String} (h : next s' = .panic m) :
    calls next (l.length + 1) s = .panic m := by
  induction t with
  | nil => simp [calls, h]
  | cons s s1 s2 a l hn _ ih =>
    rw [List.length_cons, calls, hn, Out.ok_bind]
    rw [ih h]; rfl

/-- The last of a number of calls that fail. -/
theorem calls_fail (hnone : ∀ s s', next s = .ok (none, s') → s' = s) {n : Nat} {s : σ}
    (h : ∀ os, calls next n s ≠ .ok os) : ∃ l s', Trace next s l s' ∧ ∀ r, next s' ≠ .ok r := by
  induction n generalizing s with
  | zero => exact absurd rfl (h [])
  | succ n ih =>
    by_cases hr : ∃ r, next s = .ok r
    · obtain ⟨⟨o, s1⟩, hr⟩ := hr
      cases o with
      | none =>
        obtain rfl := hnone _ _ hr
        exact absurd (calls_none hr (n + 1)) (h _)
      | some a =>
        obtain ⟨l, s', t, hf⟩ := ih (s := s1) (by
          intro os ho
          exact h (some a :: os) (by simp [calls, hr, ho]))
        exact ⟨a :: l, s', .cons _ _ _ _ _ hr t, hf⟩
    · exact ⟨[], s, .nil s, fun r hc => hr ⟨r, hc⟩⟩

/-- An iterator that yields `items` and then `None`. -/
theorem trace_of_endsAfter (hnone : ∀ s s', next s = .ok (none, s') → s' = s) {s : σ} {items : List α}
    (h : EndsAfter next s items) : ∃ s', Trace next s items s' ∧ next s' = .ok (none, s') := by
  have h1 := h (items.length + 1)
  obtain ⟨l, s', t, e, e2, e3⟩ := calls_ok hnone h1
  have hl : l = items := by
    have h2 : (items.take (items.length + 1)).map some = items.map some := by
      rw [List.take_of_length_le (by omega)]
    rw [h2] at e
    have e' := congrArg (List.filterMap _root_.id) e
    simp only [List.filterMap_append, List.filterMap_map, List.filterMap_replicate] at e'
    simp at e'
    exact e'.symm
  subst hl
  exact ⟨s', t, e3 (by omega)⟩

end iter

variable {g : GraphI}

/-! ### Following neighbors -/

theorem GraphI.leadsIn_leadsTo {u v n : Nat} (h : g.LeadsIn u n v) : g.LeadsTo u v := by
  induction h with
  | refl => exact Relation.ReflTransGen.refl
  | step n v w _ ha ih => exact ih.tail ha

theorem GraphI.leadsTo_leadsIn {u v : Nat} (h : g.LeadsTo u v) : ∃ n, g.LeadsIn u n v := by
  induction h with
  | refl => exact ⟨0, .refl⟩
  | tail _ ha ih => obtain ⟨n, hn⟩ := ih; exact ⟨n + 1, .step _ _ _ hn ha⟩

theorem GraphI.hops_spec {u v : Nat} (h : g.LeadsTo u v) : g.LeadsIn u (g.hops u v) v :=
  Nat.sInf_mem (s := {n | g.LeadsIn u n v}) (g.leadsTo_leadsIn h)

theorem GraphI.hops_le {u v n : Nat} (h : g.LeadsIn u n v) : g.hops u v ≤ n := Nat.sInf_le h

/-- Truthful steps along neighbors only discover what the root leads to. -/
theorem Truthful.leadsTo {root : Nat} {st : List Step} (h : Truthful root st)
    (ha : ∀ s ∈ st, g.Adj s.sid s.tid) : ∀ v ∈ discovered root st, g.LeadsTo root v := by
  induction st using List.reverseRecOn with
  | nil => intro v hv; simp [discovered] at hv; subst hv; exact Relation.ReflTransGen.refl
  | append_singleton st s ih =>
    have h' : Truthful root st := by
      intro pre x post he
      exact h pre x (post ++ [s]) (by rw [he]; simp)
    have ih := ih h' (fun s hs => ha s (by simp [hs]))
    have hs := h st s [] rfl
    intro v hv
    cases hc : s.cut with
    | true => rw [discovered_cut _ _ _ hc] at hv; exact ih v hv
    | false =>
      rw [discovered_new _ _ _ hc, List.mem_append] at hv
      rcases hv with hv | hv
      · exact ih v hv
      · simp at hv; subst hv
        exact (ih _ hs.1).tail (ha s (by simp))

theorem closed_leadsTo {root : Nat} {D : List Nat} (hr : root ∈ D)
    (hc : ∀ u v, u ∈ D → g.Adj u v → v ∈ D) {v : Nat} (h : g.LeadsTo root v) : v ∈ D := by
  induction h with
  | refl => exact hr
  | tail _ ha ih => exact hc _ _ ih ha

/-! ### Breadth-first -/
namespace BreadthFirst

/-- The invariant, and that every discovered node gave an answer. -/
structure AInv (g : GraphI) (root : Nat) (st : List Step) (b : BreadthFirst) : Prop where
  inv : Inv g root st b
  answered : ∀ v ∈ discovered root st, ∃ l, g.neighbors v = .ok l

theorem new_ok {root : Nat} {b : BreadthFirst} (h : BreadthFirst.new g root = .ok b) :
    AInv g root [] b := by
  unfold BreadthFirst.new at h
  rw [Out.bind_eq_ok] at h
  obtain ⟨l, h1, h2⟩ := h
  simp at h2
  have := inv_new (g := g) root
  rw [GraphI.nbr_of_ok h1, h2] at this
  refine ⟨this, ?_⟩
  intro v hv
  simp [discovered] at hv; subst hv; exact ⟨l, h1⟩

theorem AInv.cut {root : Nat} {st : List Step} {b : BreadthFirst} (h : AInv g root st b)
    {p n : Nat} {rest : List (Nat × Nat)} (hq : b.queue = (p, n) :: rest) (hv : n ∈ b.nodes) :
    AInv g root (st ++ [⟨p, n, true⟩]) { b with queue := rest } :=
  ⟨h.inv.next_cut hq hv, by rw [discovered_cut _ _ _ rfl]; exact h.answered⟩

theorem AInv.new {root : Nat} {st : List Step} {b : BreadthFirst} (h : AInv g root st b)
    {p n : Nat} {rest : List (Nat × Nat)} (hq : b.queue = (p, n) :: rest) (hv : n ∉ b.nodes)
    {l : List Nat} (hl : g.neighbors n = .ok l) :
    AInv g root (st ++ [⟨p, n, false⟩]) (grown g b n rest) := by
  refine ⟨h.inv.next_new hq hv, ?_⟩
  rw [discovered_new _ _ _ rfl]
  intro v hv'
  rw [List.mem_append] at hv'
  rcases hv' with hv' | hv'
  · exact h.answered v hv'
  · simp at hv'; subst hv'; exact ⟨l, hl⟩

theorem AInv.step {root : Nat} {st : List Step} {b : BreadthFirst} {s : Step} {b' : BreadthFirst}
    (h : AInv g root st b) (hn : BreadthFirst.next g b = .ok (some s, b')) : AInv g root (st ++ [s]) b' := by
  cases hq : b.queue with
  | nil => simp [BreadthFirst.next, hq] at hn
  | cons e rest =>
    obtain ⟨p, n⟩ := e
    by_cases hv : n ∈ b.nodes
    · rw [(h.inv.next_eq hq).1 hv] at hn
      simp at hn
      obtain ⟨rfl, rfl⟩ := hn
      exact h.cut hq hv
    · cases hl : g.neighbors n with
      | ok l =>
        rw [(h.inv.next_eq hq).2 hv l hl] at hn
        simp at hn
        obtain ⟨rfl, rfl⟩ := hn
        exact h.new hq hv hl
      | err e => simp [BreadthFirst.next, hq, hv, hl] at hn
      | panic m => simp [BreadthFirst.next, hq, hv, hl, Out.expect] at hn
      | timeout => simp [BreadthFirst.next, hq, hv, hl, Out.expect] at hn

/-- A call that does not return asked an undiscovered node that gives no answer. -/
theorem AInv.stuck {root : Nat} {st : List Step} {b : BreadthFirst} (h : AInv g root st b)
    (hn : ∀ r, BreadthFirst.next g b ≠ .ok r) :
    ∃ n, n ∉ discovered root st ∧ (∃ p ∈ discovered root st, g.Adj p n) ∧ (∀ l, g.neighbors n ≠ .ok l) ∧
      ∀ e, g.neighbors n = .err e → BreadthFirst.next g b = .panic "unwrap" := by
  cases hq : b.queue with
  | nil => exact absurd (by simp [BreadthFirst.next, hq]) (hn (none, b))
  | cons e rest =>
    obtain ⟨p, n⟩ := e
    by_cases hv : n ∈ b.nodes
    · exact absurd ((h.inv.next_eq hq).1 hv) (hn _)
    · have hm := h.inv.mem_queue (e := (p, n)) (by rw [hq]; simp)
      refine ⟨n, ?_, ⟨p, hm.1, hm.2⟩, ?_, ?_⟩
      · rwa [h.inv.nodes, List.mem_reverse] at hv
      · intro l hl; exact hn _ ((h.inv.next_eq hq).2 hv l hl)
      · intro e he; simp [BreadthFirst.next, hq, hv, he]

theorem AInv.leadsTo {root : Nat} {st : List Step} {b : BreadthFirst} (h : AInv g root st b) :
    ∀ v ∈ discovered root st, g.LeadsTo root v :=
  h.inv.truth.leadsTo (fun _ hs => h.inv.step_adj hs)

/-- If the root leads to finitely many nodes only, the traversal ends or gets stuck. -/
theorem run_or {root : Nat} {b : BreadthFirst} (hb : BreadthFirst.new g root = .ok b) {L : List Nat}
    (hL : ∀ v, g.LeadsTo root v → v ∈ L) :
    ∃ st b', Trace (BreadthFirst.next g) b st b' ∧ AInv g root st b' ∧
      (BreadthFirst.next g b' = .ok (none, b') ∨ ∀ r, BreadthFirst.next g b' ≠ .ok r) := by
  have := trace_or (next := BreadthFirst.next g) (AInv g root) (fun _ b => ∀ r, BreadthFirst.next g b ≠ .ok r)
    (measure { g with nodes := L.dedup }) ?_ [] b (new_ok hb)
  · obtain ⟨l, s, t, i, h⟩ := this
    exact ⟨l, s, t, by simpa using i, h⟩
  · intro st b h
    by_cases hok : ∃ r, BreadthFirst.next g b = .ok r
    · cases hq : b.queue with
      | nil => left; simp [BreadthFirst.next, hq]
      | cons e rest =>
        right; left
        obtain ⟨p, n⟩ := e
        by_cases hv : n ∈ b.nodes
        · exact ⟨_, _, (h.inv.next_eq hq).1 hv, h.cut hq hv, measure_cut hq⟩
        · have hm := h.inv.mem_queue (e := (p, n)) (by rw [hq]; simp)
          have hn : n ∈ L := hL n ((h.leadsTo p hm.1).tail hm.2)
          by_cases hl : ∃ l, g.neighbors n = .ok l
          · obtain ⟨l, hl⟩ := hl
            exact ⟨_, _, (h.inv.next_eq hq).2 hv l hl, h.new hq hv hl,
              measure_new (g := { g with nodes := L.dedup }) hq (List.nodup_dedup L) (List.mem_dedup.2 hn) hv⟩
          · obtain ⟨r, hr⟩ := hok
            exfalso
            simp only [BreadthFirst.next, hq] at hr
            simp only [List.contains_iff_mem, hv, Bool.false_eq_true, if_false] at hr
            rw [Out.bind_eq_ok] at hr
            obtain ⟨l, h1, -⟩ := hr
            cases hl' : g.neighbors n with
            | ok l => exact hl ⟨l, hl'⟩
            | err e => rw [hl'] at h1; simp at h1
            | panic m => rw [hl'] at h1; simp [Out.expect] at h1
            | timeout => rw [hl'] at h1; simp [Out.expect] at h1
    · right; right; exact fun r hr => hok ⟨r, hr⟩

theorem Run.ainv {root : Nat} {steps : List Step} (h : BreadthFirst.Run g root steps) :
    ∃ b b', BreadthFirst.new g root = .ok b ∧ Trace (BreadthFirst.next g) b steps b' ∧ AInv g root steps b' ∧ b'.queue = [] := by
  obtain ⟨b, h1, h2⟩ := h
  obtain ⟨b', t, e⟩ := trace_of_endsAfter (fun _ _ => next_none) h2
  have := t.inv (AInv g root) (fun _ _ _ _ => AInv.step) [] (new_ok h1)
  refine ⟨b, b', h1, t, by simpa using this, ?_⟩
  cases hq : b'.queue with
  | nil => rfl
  | cons x rest =>
    exfalso
    unfold BreadthFirst.next at e
    rw [hq] at e
    simp only at e
    split at e
    · simp at e
    · rw [Out.bind_eq_ok] at e; obtain ⟨_, _, e⟩ := e; simp at e

theorem Begins.ainv {root : Nat} {steps : List Step} (h : BreadthFirst.Begins g root steps) :
    ∃ b b', BreadthFirst.new g root = .ok b ∧ Trace (BreadthFirst.next g) b steps b' ∧ AInv g root steps b' := by
  obtain ⟨b, h1, h2⟩ := h
  obtain ⟨l, b', t, e, e2, -⟩ := calls_ok (fun _ _ => next_none) h2
  have hl : l = steps := by
    have e' := congrArg (List.filterMap _root_.id) e
    simp only [List.filterMap_append, List.filterMap_map, List.filterMap_replicate] at e'
    simp at e'
    exact e'.symm
  subst hl
  exact ⟨b, b', h1, t, by simpa using t.inv (AInv g root) (fun _ _ _ _ => AInv.step) [] (new_ok h1)⟩

theorem AInv.closed {root : Nat} {st : List Step} {b : BreadthFirst} (h : AInv g root st b) (hq : b.queue = []) (v : Nat) :
    v ∈ discovered root st ↔ g.LeadsTo root v :=
  ⟨h.leadsTo v, closed_leadsTo (by simp [discovered]) (h.inv.closed hq)⟩

/-- Levels are distances. -/
theorem AInv.level_eq_hops {root : Nat} {st : List Step} {b : BreadthFirst} (hA : AInv g root st b) (hq : b.queue = []) :
    (∀ s ∈ st, s.cut = false → g.hops root s.tid = g.hops root s.sid + 1) ∧
    (discovered root st).Pairwise (fun x y => g.hops root x ≤ g.hops root y) := by
  have h := hA.inv
  obtain ⟨ℓ, l0, l1, l2, l3, l4, l5⟩ := h.level
  have hadj : ∀ u v, u ∈ discovered root st → g.Adj u v → ℓ v ≤ ℓ u + 1 := by
    intro u v hu ha
    have hu' : u ∈ b.nodes := by rw [h.nodes, List.mem_reverse]; exact hu
    obtain ⟨n1, n2, hl⟩ := List.append_of_mem hu'
    by_cases h2 : v ∈ n2
    · have hd : discovered root st = n2.reverse ++ u :: n1.reverse := by
        have := congrArg List.reverse hl
        rw [h.nodes, List.reverse_reverse] at this
        rw [this]; simp
      rw [hd, List.pairwise_append] at l2
      have := l2.2.2 v (by simp [h2]) u (by simp)
      omega
    · have := mem_queued_of (l1 := n1) (GraphI.mem_nbr.2 ha) h2
      rw [← hl, ← h.pairs hq, List.mem_map] at this
      obtain ⟨s, hs, he⟩ := this
      have hx := l5 s hs
      simp only [Step.pair, Prod.mk.injEq] at he
      rw [he.1, he.2] at hx; exact hx
  have hle : ∀ n v, g.LeadsIn root n v → v ∈ discovered root st ∧ ℓ v ≤ n := by
    intro n v hn
    induction hn with
    | refl => exact ⟨by simp [discovered], by omega⟩
    | step n v w _ ha ih => exact ⟨h.closed hq _ _ ih.1 ha, by have := hadj _ _ ih.1 ha; omega⟩
  have hge : ∀ st', (∃ post, st = st' ++ post) → ∀ v ∈ discovered root st', g.LeadsIn root (ℓ v) v := by
    intro st'
    induction st' using List.reverseRecOn with
    | nil => intro _ v hv; simp [discovered] at hv; subst hv; rw [l0]; exact .refl
    | append_singleton st' s ih =>
      rintro ⟨post, hst⟩ v hv
      have ih := ih ⟨s :: post, by rw [hst]; simp⟩
      have hs : s ∈ st := by rw [hst]; simp
      cases hc : s.cut with
      | true => rw [discovered_cut _ _ _ hc] at hv; exact ih v hv
      | false =>
        rw [discovered_new _ _ _ hc, List.mem_append] at hv
        rcases hv with hv | hv
        · exact ih v hv
        · simp at hv; subst hv
          have ht := h.truth st' s post (by rw [hst]; simp)
          rw [l1 s hs hc]
          exact .step _ _ _ (ih s.sid ht.1) (h.step_adj hs)
  have heq : ∀ v ∈ discovered root st, g.hops root v = ℓ v := by
    intro v hv
    apply Nat.le_antisymm (GraphI.hops_le (hge st ⟨[], by simp⟩ v hv))
    exact (hle _ _ (GraphI.hops_spec (hA.leadsTo v hv))).2
  refine ⟨?_, ?_⟩
  · intro s hs hc
    rw [heq _ (h.truth.tid_mem hs), heq _ (h.truth.sid_mem hs)]
    exact l1 s hs hc
  · refine l2.imp_of_mem ?_
    intro x y hx hy hle'
    rw [heq x hx, heq y hy]; exact hle'

end BreadthFirst

/-! ### Depth-first -/
namespace DepthFirst

/-- What holds of a depth-first traversal of any graph. -/
structure WInv (g : GraphI) (root : Nat) (st : List Step) (d : DepthFirst) : Prop where
  nodes : d.nodes = (discovered root st).reverse
  truth : Truthful root st
  step_adj : ∀ s ∈ st, g.Adj s.sid s.tid
  stack_mem : ∀ e ∈ d.stack, e.1 ∈ discovered root st ∧ g.Adj e.1 e.2
  count : ∀ u v, (st.map Step.pair).count (u, v) + d.stack.count (u, v) ≤ (g.nbr u).count v
  answered : ∀ v ∈ discovered root st, ∃ l, g.neighbors v = .ok l
  chain : d.stack.Pairwise (fun e f => Ancestor st f.1 e.1)
  top : ∀ x, (discovered root st).getLast? = some x → ∀ e ∈ d.stack, Ancestor st e.1 x
  back : Backtracks root st

theorem new_ok {root : Nat} {d : DepthFirst} (h : DepthFirst.new g root = .ok d) : WInv g root [] d := by
  unfold DepthFirst.new at h
  rw [Out.bind_eq_ok] at h
  obtain ⟨l, h1, h2⟩ := h
  simp at h2; subst h2
  have hl := GraphI.nbr_of_ok h1
  constructor
  · simp [discovered]
  · intro pre s post h; simp at h
  · simp
  · intro e he
    simp only [List.mem_map] at he
    obtain ⟨x, hx, rfl⟩ := he
    exact ⟨by simp [discovered], l, h1, hx⟩
  · intro u v
    simp only [List.map_nil, List.count_nil, BreadthFirst.count_map_pair]
    split
    · rename_i e; subst e; rw [hl]; omega
    · omega
  · intro v hv
    simp [discovered] at hv; subst hv; exact ⟨l, h1⟩
  · rw [List.pairwise_map]
    simp only [List.pairwise_iff_forall_sublist]
    intro _ _ _; exact Relation.ReflTransGen.refl
  · intro x hx e he
    simp [discovered] at hx; subst hx
    simp only [List.mem_map] at he
    obtain ⟨y, -, rfl⟩ := he
    exact Relation.ReflTransGen.refl
  · intro pre s post h; simp at h

theorem WInv.cut {root : Nat} {st : List Step} {d : DepthFirst} (h : WInv g root st d)
    {p n : Nat} {rest : List (Nat × Nat)} (hq : d.stack = (p, n) :: rest) (hv : n ∈ d.nodes) :
    WInv g root (st ++ [⟨p, n, true⟩]) { d with stack := rest } := by
  have hd : discovered root (st ++ [⟨p, n, true⟩]) = discovered root st := discovered_cut _ _ _ rfl
  obtain ⟨hp, ha⟩ := h.stack_mem (p, n) (by rw [hq]; simp)
  simp only at hp ha
  have hv' : n ∈ discovered root st := by rwa [h.nodes, List.mem_reverse] at hv
  constructor
  · rw [hd]; exact h.nodes
  · exact truthful_snoc h.truth hp (by simp; exact hv')
  · intro s hs
    rw [List.mem_append] at hs
    rcases hs with hs | hs
    · exact h.step_adj s hs
    · simp at hs; subst hs; exact ha
  · rw [hd]; intro e he; exact h.stack_mem e (by rw [hq]; simp at he; simp [he])
  · intro u v
    have := h.count u v
    rw [hq] at this
    have e : ((p, n) :: rest : List (Nat × Nat)) = [(p, n)] ++ rest := rfl
    rw [e, List.count_append] at this
    rw [List.map_append, List.count_append]
    simp only [List.map_cons, List.map_nil, Step.pair]
    omega
  · rw [hd]; exact h.answered
  · have := h.chain
    rw [hq] at this
    exact (List.pairwise_cons.1 this).2.imp (fun hx => Ancestor.mono hx)
  · rw [hd]; intro x hx e he
    exact Ancestor.mono (h.top x hx e (by rw [hq]; simp at he; simp [he]))
  · refine backtracks_snoc h.back ?_
    intro x hx
    exact h.top x hx (p, n) (by rw [hq]; simp)

/-- The traversal when `n` has been discovered from `p`. -/
def grown (g : GraphI) (d : DepthFirst) (p n : Nat) (rest : List (Nat × Nat)) : DepthFirst :=
  { nodes := n :: d.nodes, stack := pushAll d.nodes p n (g.nbr n) rest }

theorem WInv.new {root : Nat} {st : List Step} {d : DepthFirst} (h : WInv g root st d)
    {p n : Nat} {rest : List (Nat × Nat)} (hq : d.stack = (p, n) :: rest) (hv : n ∉ d.nodes)
    {l : List Nat} (hl : g.neighbors n = .ok l) :
    WInv g root (st ++ [⟨p, n, false⟩]) (grown g d p n rest) := by
  have hd : discovered root (st ++ [⟨p, n, false⟩]) = discovered root st ++ [n] := discovered_new _ _ _ rfl
  obtain ⟨hp, ha⟩ := h.stack_mem (p, n) (by rw [hq]; simp)
  simp only at hp ha
  have hv' : n ∉ discovered root st := by rwa [h.nodes, List.mem_reverse] at hv
  have hrest : ∀ e ∈ rest, e.1 ∈ discovered root st ∧ g.Adj e.1 e.2 := by
    intro e he; exact h.stack_mem e (by rw [hq]; simp [he])
  unfold grown
  constructor
  · rw [hd, h.nodes]; simp
  · exact truthful_snoc h.truth hp (by simp; exact hv')
  · intro s hs
    rw [List.mem_append] at hs
    rcases hs with hs | hs
    · exact h.step_adj s hs
    · simp at hs; subst hs; exact ha
  · rw [hd]
    intro e he
    rcases pushAll_mem he with ⟨h1, h2, -⟩ | h1
    · rw [h1]; exact ⟨by simp, GraphI.mem_nbr.1 h2⟩
    · exact ⟨List.mem_append_left _ (hrest e h1).1, (hrest e h1).2⟩
  · intro u v
    have h1 := h.count u v
    rw [hq] at h1
    have e : ((p, n) :: rest : List (Nat × Nat)) = [(p, n)] ++ rest := rfl
    rw [e, List.count_append] at h1
    rw [List.map_append, List.count_append]
    simp only [List.map_cons, List.map_nil, Step.pair]
    have hsub := (pushAll_sublist d.nodes p n (g.nbr n) rest).count_le (u, v)
    rw [List.count_append, BreadthFirst.count_map_pair] at hsub
    by_cases hun : n = u
    · subst hun
      simp only [if_true] at hsub
      have h2 : (List.filter (fun x => x != p) (g.nbr n)).count v ≤ (g.nbr n).count v :=
        List.filter_sublist.count_le _
      have h3 : rest.count (n, v) = 0 := by
        rw [List.count_eq_zero]; intro hc; exact hv' (hrest _ hc).1
      have h4 : (st.map Step.pair).count (n, v) = 0 := by
        rw [List.count_eq_zero]; intro hc
        obtain ⟨s, hs, he⟩ := List.mem_map.1 hc
        have h5 : s.sid = n := congrArg Prod.fst he
        exact hv' (h5 ▸ h.truth.sid_mem hs)
      have h5 : [(p, n)].count (n, v) = 0 := by
        rw [List.count_eq_zero]; simp; rintro rfl; exact absurd hp hv'
      omega
    · simp only [hun, if_false] at hsub
      omega
  · rw [hd]
    intro v hx
    rw [List.mem_append] at hx
    rcases hx with hx | hx
    · exact h.answered v hx
    · simp at hx; subst hx; exact ⟨l, hl⟩
  · have hc := h.chain
    rw [hq] at hc
    have hc1 := (List.pairwise_cons.1 hc).1
    have hc2 := (List.pairwise_cons.1 hc).2
    refine List.Pairwise.sublist (pushAll_sublist _ _ _ _ _) ?_
    rw [List.pairwise_append]
    refine ⟨?_, hc2.imp (fun hx => Ancestor.mono hx), ?_⟩
    · rw [List.pairwise_map]
      simp only [List.pairwise_iff_forall_sublist]
      intro _ _ _; exact Relation.ReflTransGen.refl
    · intro a ha' b hb
      simp only [List.mem_map] at ha'
      obtain ⟨x, -, rfl⟩ := ha'
      refine (Ancestor.mono (hc1 b hb)).trans (Relation.ReflTransGen.single ?_)
      exact ⟨⟨p, n, false⟩, by simp, rfl, rfl, rfl⟩
  · rw [hd]
    intro x hx e he
    simp at hx; subst hx
    rcases pushAll_mem he with ⟨h1, -⟩ | h1
    · rw [h1]; exact Relation.ReflTransGen.refl
    · have hc := h.chain
      rw [hq] at hc
      have hc1 := (List.pairwise_cons.1 hc).1
      refine (Ancestor.mono (hc1 e h1)).trans (Relation.ReflTransGen.single ?_)
      exact ⟨⟨p, n, false⟩, by simp, rfl, rfl, rfl⟩
  · refine backtracks_snoc h.back ?_
    intro x hx
    exact h.top x hx (p, n) (by rw [hq]; simp)

/-- What a call does when the stack is not empty. -/
theorem next_eq {d : DepthFirst} {p n : Nat} {rest : List (Nat × Nat)} (hq : d.stack = (p, n) :: rest) :
    (n ∈ d.nodes → DepthFirst.next g d = .ok (some ⟨p, n, true⟩, { d with stack := rest })) ∧
    (n ∉ d.nodes → ∀ l, g.neighbors n = .ok l →
      DepthFirst.next g d = .ok (some ⟨p, n, false⟩, grown g d p n rest)) := by
  refine ⟨fun hv => by simp [DepthFirst.next, hq, hv], fun hv l hl => ?_⟩
  simp only [DepthFirst.next, hq]
  simp only [List.contains_iff_mem, hv, Bool.false_eq_true, if_false, hl, Out.expect_ok, Out.ok_bind]
  rw [foldl_reverse_push, grown, GraphI.nbr_of_ok hl]

/-- A call that returns an item. -/
theorem next_some {d d' : DepthFirst} {s : Step} (hn : DepthFirst.next g d = .ok (some s, d')) :
    ∃ p n rest, d.stack = (p, n) :: rest ∧
      ((n ∈ d.nodes ∧ s = ⟨p, n, true⟩ ∧ d' = { d with stack := rest }) ∨
       (n ∉ d.nodes ∧ s = ⟨p, n, false⟩ ∧ (∃ l, g.neighbors n = .ok l) ∧ d' = grown g d p n rest)) := by
  cases hq : d.stack with
  | nil => simp [DepthFirst.next, hq] at hn
  | cons e rest =>
    obtain ⟨p, n⟩ := e
    refine ⟨p, n, rest, rfl, ?_⟩
    by_cases hv : n ∈ d.nodes
    · rw [(next_eq hq).1 hv] at hn
      simp at hn
      exact .inl ⟨hv, hn.1.symm, hn.2.symm⟩
    · cases hl : g.neighbors n with
      | ok l =>
        rw [(next_eq hq).2 hv l hl] at hn
        simp at hn
        exact .inr ⟨hv, hn.1.symm, ⟨l, rfl⟩, hn.2.symm⟩
      | err e => simp [DepthFirst.next, hq, hv, hl] at hn
      | panic m => simp [DepthFirst.next, hq, hv, hl, Out.expect] at hn
      | timeout => simp [DepthFirst.next, hq, hv, hl, Out.expect] at hn

theorem WInv.step {root : Nat} {st : List Step} {d : DepthFirst} {s : Step} {d' : DepthFirst}
    (h : WInv g root st d) (hn : DepthFirst.next g d = .ok (some s, d')) : WInv g root (st ++ [s]) d' := by
  obtain ⟨p, n, rest, hq, ⟨hv, rfl, rfl⟩ | ⟨hv, rfl, ⟨l, hl⟩, rfl⟩⟩ := next_some hn
  · exact h.cut hq hv
  · exact h.new hq hv hl

theorem WInv.leadsTo {root : Nat} {st : List Step} {d : DepthFirst} (h : WInv g root st d) :
    ∀ v ∈ discovered root st, g.LeadsTo root v := h.truth.leadsTo h.step_adj

theorem WInv.stuck {root : Nat} {st : List Step} {d : DepthFirst} (h : WInv g root st d)
    (hn : ∀ r, DepthFirst.next g d ≠ .ok r) :
    ∃ n, n ∉ discovered root st ∧ (∃ p ∈ discovered root st, g.Adj p n) ∧ (∀ l, g.neighbors n ≠ .ok l) ∧
      ∀ e, g.neighbors n = .err e → DepthFirst.next g d = .panic "unwrap" := by
  cases hq : d.stack with
  | nil => exact absurd (by simp [DepthFirst.next, hq]) (hn (none, d))
  | cons e rest =>
    obtain ⟨p, n⟩ := e
    by_cases hv : n ∈ d.nodes
    · exact absurd ((next_eq hq).1 hv) (hn _)
    · have hm := h.stack_mem (p, n) (by rw [hq]; simp)
      refine ⟨n, ?_, ⟨p, hm.1, hm.2⟩, ?_, ?_⟩
      · rwa [h.nodes, List.mem_reverse] at hv
      · intro l hl; exact hn _ ((next_eq hq).2 hv l hl)
      · intro e he; simp [DepthFirst.next, hq, hv, he]

theorem run_or {root : Nat} {d : DepthFirst} (hd : DepthFirst.new g root = .ok d) {L : List Nat}
    (hL : ∀ v, g.LeadsTo root v → v ∈ L) :
    ∃ st d', Trace (DepthFirst.next g) d st d' ∧ WInv g root st d' ∧
      (DepthFirst.next g d' = .ok (none, d') ∨ ∀ r, DepthFirst.next g d' ≠ .ok r) := by
  have := trace_or (next := DepthFirst.next g) (WInv g root) (fun _ d => ∀ r, DepthFirst.next g d ≠ .ok r)
    (measure { g with nodes := L.dedup }) ?_ [] d (new_ok hd)
  · obtain ⟨l, s, t, i, h⟩ := this
    exact ⟨l, s, t, by simpa using i, h⟩
  · intro st d h
    by_cases hok : ∃ r, DepthFirst.next g d = .ok r
    · obtain ⟨⟨o, d'⟩, hr⟩ := hok
      cases o with
      | none => left; rw [hr, next_none hr]
      | some s =>
        right; left
        refine ⟨s, d', hr, h.step hr, ?_⟩
        obtain ⟨p, n, rest, hq, ⟨hv, rfl, rfl⟩ | ⟨hv, rfl, -, rfl⟩⟩ := next_some hr
        · unfold measure; rw [hq]; simp
        · have hm := h.stack_mem (p, n) (by rw [hq]; simp)
          have hn : n ∈ L := hL n ((h.leadsTo p hm.1).tail hm.2)
          unfold measure grown
          rw [hq]
          have := pendingDegree_cons (g := { g with nodes := L.dedup }) (List.nodup_dedup L) (List.mem_dedup.2 hn) hv
          have h2 := (pushAll_sublist d.nodes p n (g.nbr n) rest).length_le
          have h3 := List.length_filter_le (fun x => x != p) (g.nbr n)
          have h4 : GraphI.nbr { g with nodes := L.dedup } n = g.nbr n := rfl
          rw [h4] at this
          simp only [List.length_append, List.length_map, List.length_cons] at h2 ⊢
          omega
    · right; right; exact fun r hr => hok ⟨r, hr⟩

theorem Run.winv {root : Nat} {steps : List Step} (h : DepthFirst.Run g root steps) :
    ∃ d d', DepthFirst.new g root = .ok d ∧ Trace (DepthFirst.next g) d steps d' ∧ WInv g root steps d' ∧ d'.stack = [] := by
  obtain ⟨d, h1, h2⟩ := h
  obtain ⟨d', t, e⟩ := trace_of_endsAfter (fun _ _ => next_none) h2
  have := t.inv (WInv g root) (fun _ _ _ _ => WInv.step) [] (new_ok h1)
  refine ⟨d, d', h1, t, by simpa using this, ?_⟩
  cases hq : d'.stack with
  | nil => rfl
  | cons x rest =>
    exfalso
    unfold DepthFirst.next at e
    rw [hq] at e
    simp only at e
    split at e
    · simp at e
    · rw [Out.bind_eq_ok] at e; obtain ⟨_, _, e⟩ := e; simp at e

theorem Begins.winv {root : Nat} {steps : List Step} (h : DepthFirst.Begins g root steps) :
    ∃ d d', DepthFirst.new g root = .ok d ∧ Trace (DepthFirst.next g) d steps d' ∧ WInv g root steps d' := by
  obtain ⟨d, h1, h2⟩ := h
  obtain ⟨l, d', t, e, e2, -⟩ := calls_ok (fun _ _ => next_none) h2
  have hl : l = steps := by
    have e' := congrArg (List.filterMap _root_.id) e
    simp only [List.filterMap_append, List.filterMap_map, List.filterMap_replicate] at e'
    simp at e'
    exact e'.symm
  subst hl
  exact ⟨d, d', h1, t, by simpa using t.inv (WInv g root) (fun _ _ _ _ => WInv.step) [] (new_ok h1)⟩

/-! #### Graphs without directed cycles -/

/-- The discovery steps go from earlier to later discovered nodes. -/
theorem _root_.Gamma.Truthful.idx_lt {root : Nat} {st : List Step} (h : Truthful root st) {s : Step} (hs : s ∈ st)
    (hc : s.cut = false) : (discovered root st).idxOf s.sid < (discovered root st).idxOf s.tid := by
  obtain ⟨pre, post, rfl⟩ := List.append_of_mem hs
  have h1 := h pre s post rfl
  have hn : s.tid ∉ discovered root pre := by rw [← h1.2, hc]; simp
  rw [discovered_append, List.idxOf_append_of_mem h1.1, List.idxOf_append_of_notMem hn]
  have := List.idxOf_lt_length_iff.2 h1.1
  omega

/-- A path of discovery steps, as a list without repetition. -/
theorem ancestor_path {root : Nat} {st : List Step} (h : Truthful root st) (hadj : ∀ s ∈ st, g.Adj s.sid s.tid)
    {w p : Nat} (hw : w ∈ discovered root st) (ha : Ancestor st w p) :
    ∃ l : List Nat, l.head? = some w ∧ l.getLast? = some p ∧ l.Nodup ∧ l.IsChain g.Adj ∧
      (∀ x ∈ l, x ∈ discovered root st ∧ (discovered root st).idxOf x ≤ (discovered root st).idxOf p) := by
  induction ha with
  | refl => exact ⟨[w], rfl, rfl, by simp, by simp, by simp [hw]⟩
  | tail _ hs ih =>
    rename_i b c _
    obtain ⟨l, h1, h2, h3, h4, h5⟩ := ih
    obtain ⟨s, hs, hc, rfl, rfl⟩ := hs
    have hlt := h.idx_lt hs hc
    refine ⟨l ++ [s.tid], ?_, by simp, ?_, ?_, ?_⟩
    · rw [List.head?_append, h1]; rfl
    · refine List.nodup_append.2 ⟨h3, by simp, ?_⟩
      intro a ha b hb
      simp at hb; subst hb
      rintro rfl
      have := (h5 _ ha).2
      omega
    · rw [List.isChain_append]
      refine ⟨h4, by simp, ?_⟩
      intro x hx y hy
      rw [h2] at hx
      simp at hx hy
      subst hx; subst hy
      exact hadj s hs
    · intro x hx
      rw [List.mem_append] at hx
      rcases hx with hx | hx
      · have := h5 x hx; exact ⟨this.1, by omega⟩
      · simp at hx; subst hx; exact ⟨h.tid_mem hs, le_refl _⟩

/-- Nothing is missed where no directed cycle is met. -/
structure CInv (g : GraphI) (root : Nat) (st : List Step) (d : DepthFirst) : Prop where
  winv : WInv g root st d
  cover : ∀ u ∈ discovered root st, ∀ v, g.Adj u v → v ∈ discovered root st ∨ (u, v) ∈ d.stack

theorem CInv.new {root : Nat} {d : DepthFirst} (h : DepthFirst.new g root = .ok d) : CInv g root [] d := by
  refine ⟨new_ok h, ?_⟩
  unfold DepthFirst.new at h
  rw [Out.bind_eq_ok] at h
  obtain ⟨l, h1, h2⟩ := h
  simp at h2; subst h2
  intro u hu v hv
  simp [discovered] at hu; subst hu
  right
  have := GraphI.mem_nbr.2 hv
  rw [GraphI.nbr_of_ok h1] at this
  simp [this]

theorem CInv.step {root : Nat} (hac : ∀ C, DirectedCycle g C → ∀ v ∈ C, ¬ g.LeadsTo root v)
    {st : List Step} {d : DepthFirst} {s : Step} {d' : DepthFirst}
    (h : CInv g root st d) (hn : DepthFirst.next g d = .ok (some s, d')) : CInv g root (st ++ [s]) d' := by
  refine ⟨h.winv.step hn, ?_⟩
  have hW := h.winv
  have hmem : ∀ x, x ∈ d.nodes ↔ x ∈ discovered root st := by
    intro x; rw [hW.nodes, List.mem_reverse]
  obtain ⟨p, n, rest, hq, ⟨hv, rfl, rfl⟩ | ⟨hv, rfl, ⟨l, hl⟩, rfl⟩⟩ := next_some hn
  · have hd : discovered root (st ++ [⟨p, n, true⟩]) = discovered root st := discovered_cut _ _ _ rfl
    rw [hd]
    intro u hu v ha
    rcases h.cover u hu v ha with h1 | h1
    · exact .inl h1
    · rw [hq] at h1
      rcases List.mem_cons.1 h1 with h1 | h1
      · left; simp at h1; rw [h1.2, ← hmem]; exact hv
      · exact .inr h1
  · have hd : discovered root (st ++ [⟨p, n, false⟩]) = discovered root st ++ [n] := discovered_new _ _ _ rfl
    have hv' : n ∉ discovered root st := by rw [← hmem]; exact hv
    obtain ⟨hp, hpn⟩ := hW.stack_mem (p, n) (by rw [hq]; simp)
    rw [hd]
    intro u hu v ha
    rw [List.mem_append] at hu
    rcases hu with hu | hu
    · rcases h.cover u hu v ha with h1 | h1
      · exact .inl (List.mem_append_left _ h1)
      · rw [hq] at h1
        rcases List.mem_cons.1 h1 with h1 | h1
        · left; simp at h1; rw [h1.2]; simp
        · rcases mem_pushAll_or (visited := d.nodes) (p := p) (n := n) (ns := g.nbr n) h1 with h2 | ⟨w, w1, w2, w3, w4⟩
          · exact .inr h2
          · rcases w4 with w4 | w4
            · -- the node `u` that the new node leads back to is an ancestor of `p`
              exfalso
              simp only at w4; subst w4
              have hc := hW.chain
              rw [hq] at hc
              have hanc := (List.pairwise_cons.1 hc).1 _ h1
              simp only at hanc
              obtain ⟨l, e1, e2, e3, e4, e5⟩ := ancestor_path hW.truth hW.step_adj hu hanc
              refine hac (l ++ [n]) ⟨?_, ?_, ?_, ?_⟩ u ?_ (hW.leadsTo u hu)
              · refine List.nodup_append.2 ⟨e3, by simp, ?_⟩
                intro a ha b hb
                simp at hb; subst hb
                rintro rfl
                exact hv' (e5 _ ha).1
              · have : 2 ≤ l.length := by
                  match l, e1, e2 with
                  | [x], e1, e2 => simp at e1 e2; exact absurd (e1.symm.trans e2) w2
                  | _ :: _ :: _, _, _ => simp
                simp; omega
              · rw [List.isChain_append]
                refine ⟨e4, by simp, ?_⟩
                intro x hx y hy
                rw [e2] at hx
                simp at hx hy
                subst hx; subst hy
                exact hpn
              · intro a b ha hb
                rw [List.head?_append, e1] at ha
                simp at ha hb
                subst ha; subst hb
                exact GraphI.mem_nbr.1 w1
              · exact List.mem_append_left _ (List.mem_of_mem_head? e1)
            · left; simp at w4; rw [w4]; simp
    · simp at hu; subst hu
      by_cases hvd : v ∈ discovered root st
      · left; exact List.mem_append_left _ hvd
      · by_cases hvu : v = u
        · left; simp [hvu]
        · right
          have hvp : v ≠ p := by rintro rfl; exact hvd hp
          exact mem_pushAll_new hv (GraphI.mem_nbr.2 ha) hvp hvu

theorem Run.complete {root : Nat} (hac : ∀ C, DirectedCycle g C → ∀ v ∈ C, ¬ g.LeadsTo root v) {steps : List Step}
    (h : DepthFirst.Run g root steps) (v : Nat) : v ∈ discovered root steps ↔ g.LeadsTo root v := by
  obtain ⟨d, d', h1, t, hW, hq⟩ := Run.winv h
  refine ⟨hW.leadsTo v, ?_⟩
  have hC : CInv g root steps d' := by
    simpa using t.inv (CInv g root) (fun _ _ _ _ => CInv.step hac) [] (CInv.new h1)
  refine closed_leadsTo (by simp [discovered]) ?_
  intro u v hu ha
  rcases hC.cover u hu v ha with h2 | h2
  · exact h2
  · rw [hq] at h2; simp at h2

/-! #### Directed graphs -/

/-- No edge is seen in both directions. -/
def OneWay (st : List Step) (d : DepthFirst) : Prop :=
  ∀ u v, u ≠ v → ¬ ((u, v) ∈ st.map Step.pair ++ d.stack ∧ (v, u) ∈ st.map Step.pair ++ d.stack)

theorem oneWay_new {root : Nat} {d : DepthFirst} (h : DepthFirst.new g root = .ok d) : OneWay [] d := by
  unfold DepthFirst.new at h
  rw [Out.bind_eq_ok] at h
  obtain ⟨l, h1, h2⟩ := h
  simp at h2; subst h2
  rintro u v hne ⟨h3, h4⟩
  simp at h3 h4
  exact hne (h3.2.symm.trans h4.2)

theorem OneWay.step {root : Nat} {st : List Step} {d : DepthFirst} {s : Step} {d' : DepthFirst}
    (hW : WInv g root st d) (h : OneWay st d) (hn : DepthFirst.next g d = .ok (some s, d')) : OneWay (st ++ [s]) d' := by
  have hmem : ∀ x, x ∈ d.nodes ↔ x ∈ discovered root st := by
    intro x; rw [hW.nodes, List.mem_reverse]
  obtain ⟨p, n, rest, hq, ⟨hv, rfl, rfl⟩ | ⟨hv, rfl, ⟨l, hl⟩, rfl⟩⟩ := next_some hn
  · intro u v hne
    have := h u v hne
    rw [hq] at this
    simpa [Step.pair] using this
  · have hv' : n ∉ discovered root st := by rw [← hmem]; exact hv
    -- what is old and what is new
    have hcase : ∀ e, e ∈ (st ++ [(⟨p, n, false⟩ : Step)]).map Step.pair ++ (grown g d p n rest).stack →
        (e ∈ st.map Step.pair ++ d.stack ∧ e.1 ≠ n ∧
          (e.2 = n → e.1 = p ∨ e ∈ (grown g d p n rest).stack)) ∨ (e.1 = n ∧ e.2 ∈ g.nbr n ∧ e.2 ≠ p) := by
      intro e he
      rw [List.mem_append, List.map_append, List.mem_append] at he
      rcases he with (he | he) | he
      · left
        obtain ⟨t, ht, rfl⟩ := List.mem_map.1 he
        refine ⟨List.mem_append_left _ he, ?_, ?_⟩
        · rintro e; exact hv' (e ▸ hW.truth.sid_mem ht)
        · intro e; exact absurd (e ▸ hW.truth.tid_mem ht) hv'
      · left
        simp [Step.pair] at he
        subst he
        refine ⟨List.mem_append_right _ (by rw [hq]; simp), ?_, fun _ => .inl rfl⟩
        intro e'
        simp only at e'
        exact hv' (e' ▸ (hW.stack_mem (p, n) (by rw [hq]; simp)).1)
      · rcases pushAll_mem he with h1 | h1
        · exact .inr h1
        · left
          have hs : e ∈ d.stack := by rw [hq]; simp [h1]
          refine ⟨List.mem_append_right _ hs, ?_, fun _ => .inr he⟩
          rintro e'
          exact hv' (e' ▸ (hW.stack_mem _ hs).1)
    have key : ∀ b, b ≠ n → (n, b) ∈ (st ++ [(⟨p, n, false⟩ : Step)]).map Step.pair ++ (grown g d p n rest).stack →
        (b, n) ∈ (st ++ [(⟨p, n, false⟩ : Step)]).map Step.pair ++ (grown g d p n rest).stack → False := by
      intro b hb h1 h2
      rcases hcase _ h1 with ⟨-, h3, -⟩ | ⟨-, h3, h4⟩
      · exact h3 rfl
      · simp only at h3 h4
        rcases hcase _ h2 with ⟨h5, h6, h7⟩ | ⟨h5, -⟩
        · rcases h7 rfl with h7 | h7
          · exact h4 h7
          · have hbd : b ∈ discovered root st := by
              rw [List.mem_append] at h5
              rcases h5 with h5 | h5
              · obtain ⟨t, ht, e⟩ := List.mem_map.1 h5
                have : t.sid = b := congrArg Prod.fst e
                exact this ▸ hW.truth.sid_mem ht
              · exact (hW.stack_mem _ h5).1
            exact (pushAll_kept h7 hb h3 h4 ((hmem b).2 hbd)).1 rfl
        · exact hb h5
    rintro u v hne ⟨h1, h2⟩
    by_cases hu : u = n
    · subst hu; exact key v (Ne.symm hne) h1 h2
    · by_cases hv2 : v = n
      · subst hv2; exact key u hne h2 h1
      · rcases hcase _ h1 with ⟨h3, -⟩ | ⟨h3, -⟩
        · rcases hcase _ h2 with ⟨h4, -⟩ | ⟨h4, -⟩
          · exact h u v hne ⟨h3, h4⟩
          · exact hv2 h4
        · exact hu h3

theorem Begins.oneWay {root : Nat} {d d' : DepthFirst} {steps : List Step} (h : DepthFirst.new g root = .ok d)
    (t : Trace (DepthFirst.next g) d steps d') : OneWay steps d' := by
  have := t.inv (fun st d => WInv g root st d ∧ OneWay st d)
    (fun _ _ _ _ h hn => ⟨h.1.step hn, OneWay.step h.1 h.2 hn⟩) [] ⟨new_ok h, oneWay_new h⟩
  simpa using this.2

theorem WInv.jc_le {root : Nat} {st : List Step} {d : DepthFirst} (h : WInv g root st d) (ho : OneWay st d)
    (hn : ∀ u ∈ discovered root st, ∀ v, u ≠ v → (g.nbr u).count v ≤ 1) {u v : Nat} (hne : u ≠ v) :
    jc u v (st.map Step.pair) ≤ 1 := by
  have key : ∀ u v, u ≠ v → (st.map Step.pair).count (u, v) ≤ 1 := by
    intro u v hne
    by_cases hm : (u, v) ∈ st.map Step.pair
    · obtain ⟨s, hs, e⟩ := List.mem_map.1 hm
      have : s.sid = u := congrArg Prod.fst e
      have h1 := h.count u v
      have h2 := hn u (this ▸ h.truth.sid_mem hs) v hne
      omega
    · rw [List.count_eq_zero.2 hm]; omega
  have h1 := key u v hne
  have h2 := key v u (Ne.symm hne)
  unfold jc
  by_cases hm : (u, v) ∈ st.map Step.pair
  · have : (v, u) ∉ st.map Step.pair := fun hc =>
      ho u v hne ⟨List.mem_append_left _ hm, List.mem_append_left _ hc⟩
    rw [List.count_eq_zero.2 this]; omega
  · rw [List.count_eq_zero.2 hm]; omega

end DepthFirst

namespace GraphI

theorem Lawful.directed (h : g.Lawful) : g.Directed where
  nodes_nodup := h.nodes_nodup
  neighbors_ok := h.neighbors_ok
  adj_mem := fun u v _ => h.adj_mem u v
  neighbor_once := fun u v l _ => h.neighbor_once u v l

theorem Directed.leadsTo (h : g.Directed) {u v : Nat} (hu : u ∈ g.nodes) (hl : g.LeadsTo u v) : v ∈ g.nodes := by
  induction hl with
  | refl => exact hu
  | tail _ ha ih => exact h.adj_mem _ _ ih ha

theorem Directed.count_le (h : g.Directed) {u v : Nat} (hu : u ∈ g.nodes) (hne : u ≠ v) : (g.nbr u).count v ≤ 1 := by
  obtain ⟨l, hl⟩ := h.neighbors_ok u hu
  rw [nbr_of_ok hl]
  exact h.neighbor_once u v l hu hl hne

end GraphI

/-- What a depth-first traversal of a directed graph does, and what becomes of it. -/
theorem DepthFirst.directed_run (hg : g.Directed) {root : Nat} (hr : root ∈ g.nodes) :
    ∃ d d' steps, DepthFirst.new g root = .ok d ∧ DepthFirst.Run g root steps ∧
      Trace (DepthFirst.next g) d steps d' ∧ DepthFirst.next g d' = .ok (none, d') ∧ WInv g root steps d' ∧ OneWay steps d' := by
  obtain ⟨l, hl⟩ := hg.neighbors_ok root hr
  have hd : ∃ d, DepthFirst.new g root = .ok d := by simp [DepthFirst.new, hl]
  obtain ⟨d, hd⟩ := hd
  obtain ⟨st, d', t, hW, h | h⟩ := run_or hd (L := g.nodes) (fun v hv => hg.leadsTo hr hv)
  · exact ⟨d, d', st, hd, ⟨d, hd, endsAfter_of_trace t h⟩, t, h, hW, Begins.oneWay hd t⟩
  · obtain ⟨n, h1, ⟨p, h2, h3⟩, h4, -⟩ := hW.stuck h
    have := hg.leadsTo hr ((hW.leadsTo p h2).tail h3)
    obtain ⟨l, hl⟩ := hg.neighbors_ok n this
    exact absurd hl (h4 l)

theorem DepthFirst.directed_once (hg : g.Directed) {root : Nat} (hr : root ∈ g.nodes) {st : List Step} {d : DepthFirst}
    (hW : WInv g root st d) (ho : OneWay st d) (u v : Nat) (hne : u ≠ v) : jc u v (st.map Step.pair) ≤ 1 :=
  hW.jc_le ho (fun _ hu _ hne => hg.count_le (hg.leadsTo hr (hW.leadsTo _ hu)) hne) hne

/-- Converting a depth-first traversal of a directed graph. -/
theorem DepthFirst.directed_convert (hg : g.Directed) {root : Nat} (hr : root ∈ g.nodes) :
    ∃ d steps, DepthFirst.new g root = .ok d ∧ DepthFirst.Run g root steps ∧
      (LoopsOnce steps → ∃ r : DefaultGraph, r.ReachableNoAdjLoop ∧
        r.nodes = (if steps = [] then [] else discovered root steps) ∧
        r.edges = steps.map (fun s => (s.sid, s.tid)) ∧
        (∀ v ∈ r.nodes, r.neighbors v = .ok (incident v (steps.map (fun s => (s.sid, s.tid))))) ∧
        ∀ fuel, steps.length < fuel → DefaultGraph.tryFromDfs g fuel d = .ok r) ∧
      (¬ LoopsOnce steps → ∃ v, 2 ≤ (steps.map (fun s => (s.sid, s.tid))).count (v, v) ∧
        ∀ fuel, steps.length < fuel → DefaultGraph.tryFromDfs g fuel d = .err (.duplicateEdge v v)) := by
  obtain ⟨d, d', steps, hd, hrun, t, he, hW, ho⟩ := directed_run hg hr
  have once := directed_once hg hr hW ho
  refine ⟨d, steps, hd, hrun, ?_, ?_⟩
  · intro hl
    obtain ⟨r, h1, h2, h3, h4⟩ := DefaultGraph.dfs_fold hW.truth once hl
    have key : ∀ fuel, steps.length < fuel → DefaultGraph.tryFromDfs g fuel d = .ok r := by
      intro fuel hf
      unfold DefaultGraph.tryFromDfs
      rw [forLoop_of_trace _ t he fuel hf, h1]
    refine ⟨r, DefaultGraph.reachable_tryFromDfs g _ d r (key (steps.length + 1) (by omega)), ?_, h4, ?_, key⟩
    · rw [h3]; simp [DepthFirst.seen]
    · intro v hv
      rw [h2.2.2.1 v hv, h4]
      rfl
  · intro hl
    obtain ⟨v, h1, h2⟩ := DefaultGraph.dfs_fold_fails hW.truth once hl
    refine ⟨v, h1, fun fuel hf => ?_⟩
    unfold DefaultGraph.tryFromDfs
    rw [forLoop_of_trace _ t he fuel hf, h2]

/-- What a run yields is unique. -/
theorem DepthFirst.Run.unique {root : Nat} {st st' : List Step} (h : DepthFirst.Run g root st) (h' : DepthFirst.Run g root st') :
    st = st' := by
  obtain ⟨d, e, h⟩ := h
  obtain ⟨d', e', h'⟩ := h'
  rw [e] at e'; injection e' with e'; subst e'
  exact endsAfter_unique h h'

theorem BreadthFirst.Run.unique {root : Nat} {st st' : List Step} (h : BreadthFirst.Run g root st)
    (h' : BreadthFirst.Run g root st') : st = st' := by
  obtain ⟨d, e, h⟩ := h
  obtain ⟨d', e', h'⟩ := h'
  rw [e] at e'; injection e' with e'; subst e'
  exact endsAfter_unique h h'

/-- All depth-first runs from nodes of a directed graph have a common bound on their length. -/
theorem directed_bound (hg : g.Directed) :
    ∃ N, ∀ root ∈ g.nodes, ∀ steps, DepthFirst.Run g root steps → steps.length < N := by
  have key : ∀ l : List Nat, (∀ r ∈ l, r ∈ g.nodes) →
      ∃ N, ∀ root ∈ l, ∀ steps, DepthFirst.Run g root steps → steps.length < N := by
    intro l
    induction l with
    | nil => intro _; exact ⟨0, by simp⟩
    | cons a l ih =>
      intro h
      obtain ⟨N, hN⟩ := ih (fun r hr => h r (by simp [hr]))
      obtain ⟨-, -, st, -, hst, -⟩ := DepthFirst.directed_run hg (h a (by simp))
      refine ⟨N + st.length + 1, ?_⟩
      intro root hr steps hs
      rcases List.mem_cons.1 hr with rfl | hr
      · rw [hst.unique hs]; omega
      · have := hN root hr steps hs; omega
  exact key g.nodes (fun r hr => hr)

/-- A graph with a rank that grows along every edge between different nodes has no cycle. -/
theorem DirectedCycle.no_rank {C : List Nat} (h : DirectedCycle g C) (f : Nat → Nat)
    (hf : ∀ u v, u ≠ v → g.Adj u v → f u < f v) : False := by
  have key : ∀ (l : List Nat), l.Nodup → l.IsChain g.Adj → ∀ a b, l.head? = some a → l.getLast? = some b → f a ≤ f b := by
    intro l
    induction l with
    | nil => simp
    | cons x l ih =>
      intro hn hc a b ha hb
      simp at ha; subst ha
      cases l with
      | nil => simp at hb; subst hb; exact le_refl _
      | cons y l =>
        rw [List.isChain_cons_cons] at hc
        have hxy : x ≠ y := by
          rintro rfl
          simp at hn
        have := ih (List.nodup_cons.1 hn).2 hc.2 y b rfl (by simpa using hb)
        have := hf x y hxy hc.1
        omega
  obtain ⟨h1, h2, h3, h4⟩ := h
  match C, h2 with
  | a :: x :: l, h2 =>
    obtain ⟨b, hb⟩ : ∃ b, (a :: x :: l).getLast? = some b := by
      cases e : (a :: x :: l).getLast? with
      | none => simp at e
      | some b => exact ⟨b, rfl⟩
    have h5 := key _ h1 h3 a b rfl hb
    have hab : b ≠ a := by
      rintro rfl
      have : b ∈ x :: l := by
        rw [List.getLast?_cons_cons] at hb
        exact List.mem_of_getLast? hb
      exact (List.nodup_cons.1 h1).1 this
    have := hf b a hab (h4 a b rfl hb)
    omega

end Gamma
