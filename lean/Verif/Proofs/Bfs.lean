import Verif.Proofs.Lawful
/-
Breadth-first traversal: invariant and consequences.
-/
namespace Gamma

/-- Steps as pairs. -/
def Step.pair (s : Step) : Nat × Nat := (s.sid, s.tid)

/-- Flags are truthful: at every step the source is discovered, and `cut` tells whether the target is. -/
def Truthful (root : Nat) (steps : List Step) : Prop :=
  ∀ pre s post, steps = pre ++ s :: post →
    s.sid ∈ discovered root pre ∧ (s.cut = true ↔ s.tid ∈ discovered root pre)

theorem discovered_append (root : Nat) (st st' : List Step) :
    discovered root (st ++ st') = discovered root st ++ (st'.filter (fun s => !s.cut)).map Step.tid := by
  simp [discovered]

theorem discovered_cut (root : Nat) (st : List Step) (s : Step) (h : s.cut = true) :
    discovered root (st ++ [s]) = discovered root st := by simp [discovered_append, h]

theorem discovered_new (root : Nat) (st : List Step) (s : Step) (h : s.cut = false) :
    discovered root (st ++ [s]) = discovered root st ++ [s.tid] := by simp [discovered_append, h]

theorem truthful_snoc {root : Nat} {st : List Step} {s : Step} (h : Truthful root st)
    (h1 : s.sid ∈ discovered root st) (h2 : s.cut = true ↔ s.tid ∈ discovered root st) :
    Truthful root (st ++ [s]) := by
  intro pre x post he
  rcases List.eq_nil_or_concat post with rfl | ⟨post', y, rfl⟩
  · have := List.append_inj' he (by simp)
    obtain ⟨rfl, e2⟩ := this
    simp at e2; subst e2; exact ⟨h1, h2⟩
  · have e : pre ++ x :: (post' ++ [y]) = (pre ++ x :: post') ++ [y] := by simp
    rw [List.concat_eq_append, e] at he
    have := List.append_inj' he (by simp)
    exact h pre x post' this.1

theorem Truthful.nodup {root : Nat} {st : List Step} (h : Truthful root st) :
    (discovered root st).Nodup := by
  induction st using List.reverseRecOn with
  | nil => simp [discovered]
  | append_singleton st s ih =>
    have h' : Truthful root st := by
      intro pre x post he
      exact h pre x (post ++ [s]) (by rw [he]; simp)
    have hs := h st s [] rfl
    cases hc : s.cut with
    | true => rw [discovered_cut _ _ _ hc]; exact ih h'
    | false =>
      rw [discovered_new _ _ _ hc]
      have : s.tid ∉ discovered root st := by rw [← hs.2, hc]; simp
      exact List.nodup_append.2 ⟨ih h', by simp, by
        intro a ha b hb; simp at hb; subst hb; rintro rfl; exact this ha⟩

theorem discovered_mono {root : Nat} {pre post : List Step} {v : Nat} (h : v ∈ discovered root pre) :
    v ∈ discovered root (pre ++ post) := by rw [discovered_append]; exact List.mem_append_left _ h

theorem Truthful.tid_mem {root : Nat} {st : List Step} (h : Truthful root st) {s : Step} (hs : s ∈ st) :
    s.tid ∈ discovered root st := by
  obtain ⟨pre, post, rfl⟩ := List.append_of_mem hs
  have := h pre s post rfl
  cases hc : s.cut with
  | true => exact discovered_mono (this.2.1 hc)
  | false =>
    have e : pre ++ s :: post = (pre ++ [s]) ++ post := by simp
    rw [e]; apply discovered_mono
    rw [discovered_new _ _ _ hc]; simp

theorem Truthful.sid_mem {root : Nat} {st : List Step} (h : Truthful root st) {s : Step} (hs : s ∈ st) :
    s.sid ∈ discovered root st := by
  obtain ⟨pre, post, rfl⟩ := List.append_of_mem hs
  exact discovered_mono (h pre s post rfl).1

theorem mem_discovered {root : Nat} {st : List Step} {v : Nat} :
    v ∈ discovered root st ↔ v = root ∨ ∃ s ∈ st, s.cut = false ∧ s.tid = v := by
  simp [discovered, List.mem_filter, and_assoc]

/-- A discovery step joins two different nodes. -/
theorem Truthful.ne {root : Nat} {st : List Step} (h : Truthful root st) {s : Step} (hs : s ∈ st)
    (hc : s.cut = false) : s.sid ≠ s.tid := by
  obtain ⟨pre, post, rfl⟩ := List.append_of_mem hs
  have h1 := h pre s post rfl
  intro e
  have := h1.2.2 (e ▸ h1.1)
  rw [hc] at this; simp at this

/-- The discovered nodes are connected in any graph that has the discovery steps as edges. -/
theorem Truthful.reachable_in (H : SimpleGraph Nat) {root : Nat} {st : List Step}
    (h : Truthful root st) (ha : ∀ s ∈ st, s.cut = false → H.Adj s.sid s.tid) :
    ∀ v ∈ discovered root st, H.Reachable root v := by
  induction st using List.reverseRecOn with
  | nil => intro v hv; simp [discovered] at hv; subst hv; exact SimpleGraph.Reachable.refl _
  | append_singleton st s ih =>
    have h' : Truthful root st := by
      intro pre x post he
      exact h pre x (post ++ [s]) (by rw [he]; simp)
    have ih := ih h' (fun s hs => ha s (by simp [hs]))
    have hs := h st s [] rfl
    intro v hv
    cases hc : s.cut with
    | true => rw [discovered_cut _ _ _ hc] at hv; exact ih v hv
    | false =>
      rw [discovered_new _ _ _ hc, List.mem_append] at hv
      rcases hv with hv | hv
      · exact ih v hv
      · simp at hv; subst hv
        exact (ih _ hs.1).trans (SimpleGraph.Adj.reachable (ha s (by simp) hc))

/-- Following truthful steps between adjacent nodes only reaches connected nodes. -/
theorem Truthful.reachable {g : GraphI} (hg : g.Lawful) {root : Nat} {st : List Step}
    (h : Truthful root st) (ha : ∀ s ∈ st, g.Adj s.sid s.tid) :
    ∀ v ∈ discovered root st, g.simple.Reachable root v :=
  h.reachable_in g.simple (fun s hs hc => (hg.simple_adj).2 ⟨h.ne hs hc, ha s hs⟩)

/-- If the discovered nodes are closed under adjacency they are the whole component. -/
theorem closed_reachable {g : GraphI} (hg : g.Lawful) {root : Nat} {D : List Nat} (hr : root ∈ D)
    (hc : ∀ u v, u ∈ D → g.Adj u v → v ∈ D) {v : Nat} (h : g.simple.Reachable root v) : v ∈ D := by
  obtain ⟨w⟩ := h
  induction w with
  | nil => exact hr
  | cons ha _ ih =>
    exact ih (hc _ _ hr ((hg.simple_adj).1 ha).2)

namespace BreadthFirst
variable {g : GraphI}

/-- All entries ever queued when `seen` (newest first) has been discovered. -/
def queued (g : GraphI) : List Nat → List (Nat × Nat)
  | [] => []
  | v :: seen => queued g seen ++ ((g.nbr v).filter (fun n => !seen.contains n)).map (fun n => (v, n))

theorem mem_queued {seen : List Nat} {e : Nat × Nat} (h : e ∈ queued g seen) :
    e.1 ∈ seen ∧ e.2 ∈ g.nbr e.1 := by
  induction seen with
  | nil => simp [queued] at h
  | cons v seen ih =>
    simp only [queued, List.mem_append, List.mem_map, List.mem_filter] at h
    rcases h with h | ⟨n, ⟨h1, -⟩, rfl⟩
    · exact ⟨List.mem_cons_of_mem _ (ih h).1, (ih h).2⟩
    · exact ⟨by simp, h1⟩

theorem foldl_push (visited : List Nat) (p n : Nat) (hp : p ∈ visited) (ns : List Nat) (q : List (Nat × Nat)) :
    ns.foldl (pushNeighbor visited p n) q =
      q ++ (ns.filter (fun x => !visited.contains x)).map (fun x => (n, x)) := by
  induction ns generalizing q with
  | nil => simp
  | cons a ns ih =>
    rw [List.foldl_cons, ih]
    unfold pushNeighbor
    by_cases ha : a ∈ visited
    · simp [ha]
    · have : a ≠ p := by rintro rfl; exact ha hp
      simp [ha, this]

/-- Invariant after `st` was yielded. -/
structure Inv (g : GraphI) (root : Nat) (st : List Step) (b : BreadthFirst) : Prop where
  nodes : b.nodes = (discovered root st).reverse
  queue : st.map Step.pair ++ b.queue = queued g b.nodes
  truth : Truthful root st
  level : ∃ ℓ : Nat → Nat, ℓ root = 0 ∧
    (∀ s ∈ st, s.cut = false → ℓ s.tid = ℓ s.sid + 1) ∧
    (discovered root st).Pairwise (fun x y => ℓ x ≤ ℓ y) ∧
    b.queue.Pairwise (fun e f => ℓ e.1 ≤ ℓ f.1) ∧
    (∀ d ∈ discovered root st, ∀ e ∈ b.queue, ℓ d ≤ ℓ e.1 + 1) ∧
    (∀ s ∈ st, ℓ s.tid ≤ ℓ s.sid + 1)

/-- The measure of a state. -/
def measure (g : GraphI) (b : BreadthFirst) : Nat := b.queue.length + pendingDegree g b.nodes

theorem new_eq (hg : g.Lawful) {root : Nat} (hr : root ∈ g.nodes) :
    BreadthFirst.new g root = .ok { nodes := [root], queue := (g.nbr root).map (fun n => (root, n)) } := by
  simp [BreadthFirst.new, hg.neighbors_eq hr]

theorem inv_new (root : Nat) :
    Inv g root [] { nodes := [root], queue := (g.nbr root).map (fun n => (root, n)) } where
  nodes := by simp [discovered]
  queue := by simp [queued]
  truth := by intro pre s post h; simp at h
  level := by
    refine ⟨fun _ => 0, rfl, by simp, by simp [discovered], ?_, by simp, by simp⟩
    simp [List.pairwise_iff_forall_sublist]

theorem Inv.mem_queue {root : Nat} {st : List Step} {b : BreadthFirst} (h : Inv g root st b)
    {e : Nat × Nat} (he : e ∈ b.queue) : e.1 ∈ discovered root st ∧ g.Adj e.1 e.2 := by
  have : e ∈ queued g b.nodes := by rw [← h.queue]; exact List.mem_append_right _ he
  have := mem_queued this
  rw [h.nodes, List.mem_reverse] at this
  exact ⟨this.1, GraphI.mem_nbr.1 this.2⟩

theorem Inv.step_adj {root : Nat} {st : List Step} {b : BreadthFirst} (h : Inv g root st b)
    {s : Step} (hs : s ∈ st) : g.Adj s.sid s.tid := by
  have : s.pair ∈ queued g b.nodes := by
    rw [← h.queue]; exact List.mem_append_left _ (List.mem_map_of_mem hs)
  exact GraphI.mem_nbr.1 (mem_queued this).2

/-- A step to a discovered node. -/
theorem Inv.next_cut {root : Nat} {st : List Step} {b : BreadthFirst} (h : Inv g root st b)
    {p n : Nat} {rest : List (Nat × Nat)} (hq : b.queue = (p, n) :: rest) (hv : n ∈ b.nodes) :
    Inv g root (st ++ [⟨p, n, true⟩]) { b with queue := rest } := by
  obtain ⟨hp, ha⟩ := h.mem_queue (e := (p, n)) (by rw [hq]; simp)
  simp only at hp ha
  obtain ⟨ℓ, l0, l1, l2, l3, l4, l5⟩ := h.level
  have hmem : ∀ x, x ∈ b.nodes ↔ x ∈ discovered root st := by
    intro x; rw [h.nodes, List.mem_reverse]
  have hd : discovered root (st ++ [⟨p, n, true⟩]) = discovered root st := discovered_cut _ _ _ rfl
  refine ⟨by rw [hd]; exact h.nodes, ?_, ?_, ℓ, l0, ?_, ?_, ?_, ?_, ?_⟩
  · have := h.queue
    rw [hq] at this
    rw [← this]; simp [Step.pair]
  · exact truthful_snoc h.truth hp (by simp; exact (hmem n).1 hv)
  · intro s hs
    rw [List.mem_append] at hs
    rcases hs with hs | hs
    · exact l1 s hs
    · simp at hs; subst hs; simp
  · rw [hd]; exact l2
  · rw [hq] at l3; exact (List.pairwise_cons.1 l3).2
  · rw [hd]; intro d hd e he; exact l4 d hd e (by rw [hq]; simp [he])
  · intro s hs
    rw [List.mem_append] at hs
    rcases hs with hs | hs
    · exact l5 s hs
    · simp at hs; subst hs
      exact l4 n ((hmem n).1 hv) (p, n) (by rw [hq]; simp)

/-- The queue when `n` has been discovered. -/
def grown (g : GraphI) (b : BreadthFirst) (n : Nat) (rest : List (Nat × Nat)) : BreadthFirst :=
  { nodes := n :: b.nodes, queue :=
      rest ++ ((g.nbr n).filter (fun x => !b.nodes.contains x)).map (fun x => (n, x)) }

/-- A step that discovers a node. -/
theorem Inv.next_new {root : Nat} {st : List Step} {b : BreadthFirst} (h : Inv g root st b)
    {p n : Nat} {rest : List (Nat × Nat)} (hq : b.queue = (p, n) :: rest) (hv : n ∉ b.nodes) :
    Inv g root (st ++ [⟨p, n, false⟩]) (grown g b n rest) := by
  obtain ⟨hp, ha⟩ := h.mem_queue (e := (p, n)) (by rw [hq]; simp)
  simp only at hp ha
  obtain ⟨ℓ, l0, l1, l2, l3, l4, l5⟩ := h.level
  have hmem : ∀ x, x ∈ b.nodes ↔ x ∈ discovered root st := by
    intro x; rw [h.nodes, List.mem_reverse]
  have hnd : n ∉ discovered root st := by rw [← hmem]; exact hv
  unfold grown
  have hd : discovered root (st ++ [⟨p, n, false⟩]) = discovered root st ++ [n] :=
    discovered_new _ _ _ rfl
  refine ⟨by rw [hd, h.nodes]; simp, ?_, ?_, ?_⟩
  · have := h.queue
    rw [hq] at this
    simp only [queued]
    rw [← this]; simp [Step.pair]
  · exact truthful_snoc h.truth hp (by simp; exact hnd)
  · refine ⟨fun x => if x = n then ℓ p + 1 else ℓ x, ?_, ?_, ?_, ?_, ?_, ?_⟩
    · have : root ≠ n := by rintro rfl; exact hnd (by simp [discovered])
      simp [this, l0]
    · intro s hs hc
      rw [List.mem_append] at hs
      rcases hs with hs | hs
      · have h1 : s.tid ≠ n := by rintro e; exact hnd (e ▸ h.truth.tid_mem hs)
        have h2 : s.sid ≠ n := by rintro e; exact hnd (e ▸ h.truth.sid_mem hs)
        simp [h1, h2, l1 s hs hc]
      · simp at hs; subst hs
        have : p ≠ n := by rintro rfl; exact hnd hp
        simp [this]
    · rw [hd, List.pairwise_append]
      refine ⟨?_, by simp, ?_⟩
      · refine l2.imp_of_mem ?_
        intro a c ha' hc' hle
        have h1 : a ≠ n := by rintro rfl; exact hnd ha'
        have h2 : c ≠ n := by rintro rfl; exact hnd hc'
        simp [h1, h2, hle]
      · intro a ha' c hc'
        simp at hc'; subst hc'
        have h1 : a ≠ c := by rintro rfl; exact hnd ha'
        simp [h1]
        exact l4 a ha' (p, c) (by rw [hq]; simp)
    · have hsrc : ∀ e ∈ rest, e.1 ≠ n := by
        intro e he hc
        exact hnd (hc ▸ (h.mem_queue (e := e) (by rw [hq]; simp [he])).1)
      rw [List.pairwise_append]
      refine ⟨?_, ?_, ?_⟩
      · rw [hq] at l3
        refine (List.pairwise_cons.1 l3).2.imp_of_mem ?_
        intro a c ha' hc' hle
        simp [hsrc a ha', hsrc c hc', hle]
      · rw [List.pairwise_map]
        simp [List.pairwise_iff_forall_sublist]
      · intro a ha' c hc'
        simp only [List.mem_map] at hc'
        obtain ⟨x, -, rfl⟩ := hc'
        simp [hsrc a ha']
        have := l4 a.1 (h.mem_queue (e := a) (by rw [hq]; simp [ha'])).1 (p, n) (by rw [hq]; simp)
        exact this
    · rw [hd]
      have hsrc : ∀ e ∈ rest, e.1 ≠ n := by
        intro e he hc
        exact hnd (hc ▸ (h.mem_queue (e := e) (by rw [hq]; simp [he])).1)
      intro d hd' e he
      rw [List.mem_append] at hd' he
      rcases hd' with hd' | hd'
      · have h1 : d ≠ n := by rintro rfl; exact hnd hd'
        rcases he with he | he
        · simp [h1, hsrc e he]; exact l4 d hd' e (by rw [hq]; simp [he])
        · simp only [List.mem_map] at he
          obtain ⟨x, -, rfl⟩ := he
          simp [h1]
          have := l4 d hd' (p, n) (by rw [hq]; simp)
          simp only at this
          omega
      · simp at hd'; subst hd'
        rcases he with he | he
        · simp [hsrc e he]
          rw [hq] at l3
          exact (List.pairwise_cons.1 l3).1 e he
        · simp only [List.mem_map] at he
          obtain ⟨x, -, rfl⟩ := he
          simp
    · intro s hs
      rw [List.mem_append] at hs
      rcases hs with hs | hs
      · have h1 : s.tid ≠ n := by rintro e; exact hnd (e ▸ h.truth.tid_mem hs)
        have h2 : s.sid ≠ n := by rintro e; exact hnd (e ▸ h.truth.sid_mem hs)
        simp [h1, h2, l5 s hs]
      · simp at hs; subst hs
        have : p ≠ n := by rintro rfl; exact hnd hp
        simp [this]

/-- What a call does when the queue is not empty. -/
theorem Inv.next_eq {root : Nat} {st : List Step} {b : BreadthFirst} (h : Inv g root st b)
    {p n : Nat} {rest : List (Nat × Nat)} (hq : b.queue = (p, n) :: rest) :
    (n ∈ b.nodes → BreadthFirst.next g b = .ok (some ⟨p, n, true⟩, { b with queue := rest })) ∧
    (n ∉ b.nodes → ∀ l, g.neighbors n = .ok l →
      BreadthFirst.next g b = .ok (some ⟨p, n, false⟩, grown g b n rest)) := by
  refine ⟨fun hv => by simp [BreadthFirst.next, hq, hv], fun hv l hl => ?_⟩
  have hp : p ∈ b.nodes := by
    rw [h.nodes, List.mem_reverse]; exact (h.mem_queue (e := (p, n)) (by rw [hq]; simp)).1
  simp only [BreadthFirst.next, hq]
  simp only [List.contains_iff_mem, hv, Bool.false_eq_true, if_false, hl, Out.expect_ok, Out.ok_bind]
  rw [foldl_push _ _ _ hp, grown, GraphI.nbr_of_ok hl]

theorem measure_cut {b : BreadthFirst} {p n : Nat} {rest : List (Nat × Nat)} (hq : b.queue = (p, n) :: rest) :
    measure g { b with queue := rest } < measure g b := by
  unfold measure; rw [hq]; simp

theorem measure_new {b : BreadthFirst} {p n : Nat} {rest : List (Nat × Nat)} (hq : b.queue = (p, n) :: rest)
    (hnd : g.nodes.Nodup) (hn : n ∈ g.nodes) (hv : n ∉ b.nodes) : measure g (grown g b n rest) < measure g b := by
  unfold measure grown
  rw [hq]
  have := pendingDegree_cons hnd hn hv
  have h2 := List.length_filter_le (fun x => !b.nodes.contains x) (g.nbr n)
  simp only [List.length_append, List.length_map, List.length_cons]
  omega

theorem Inv.next (hg : g.Lawful) {root : Nat} {st : List Step} {b : BreadthFirst}
    (h : Inv g root st b) :
    (BreadthFirst.next g b = .ok (none, b) ∧ b.queue = []) ∨
    ∃ s b', BreadthFirst.next g b = .ok (some s, b') ∧ Inv g root (st ++ [s]) b' ∧
      measure g b' < measure g b := by
  cases hq : b.queue with
  | nil => left; exact ⟨by simp [BreadthFirst.next, hq], rfl⟩
  | cons e rest =>
    right
    obtain ⟨p, n⟩ := e
    have ha := (h.mem_queue (e := (p, n)) (by rw [hq]; simp)).2
    by_cases hv : n ∈ b.nodes
    · exact ⟨_, _, (h.next_eq hq).1 hv, h.next_cut hq hv, measure_cut hq⟩
    · have hn : n ∈ g.nodes := hg.adj_mem _ _ ha
      exact ⟨_, _, (h.next_eq hq).2 hv _ (hg.neighbors_eq hn), h.next_new hq hv,
        measure_new hq hg.nodes_nodup hn hv⟩

/-- The whole run. -/
theorem run (hg : g.Lawful) {root : Nat} (hr : root ∈ g.nodes) :
    ∃ b steps b', BreadthFirst.new g root = .ok b ∧ Trace (BreadthFirst.next g) b steps b' ∧
      BreadthFirst.next g b' = .ok (none, b') ∧ Inv g root steps b' ∧ b'.queue = [] := by
  obtain ⟨l, b', t, e, i⟩ := exists_trace (next := BreadthFirst.next g) (Inv g root) (measure g)
    (fun l s h => (h.next hg).imp And.left id) [] _ (inv_new (g := g) root)
  refine ⟨_, l, b', new_eq hg hr, t, e, by simpa using i, ?_⟩
  rcases i.next hg with ⟨-, h⟩ | ⟨s, b'', h, -⟩
  · exact h
  · rw [e] at h; simp at h

end BreadthFirst
end Gamma
