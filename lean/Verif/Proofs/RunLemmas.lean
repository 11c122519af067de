import Verif.Proofs.BfsProps
import Verif.Proofs.DfsProps
/-
From the invariants at the end of a run to statements about `BreadthFirst.Run` / `DepthFirst.Run`,
and evaluation lemmas for concrete runs.
-/
namespace Gamma

/-- A `for` loop that ends tells how its iterator ran. -/
theorem trace_of_collect {σ α : Type} {next : σ → Out (Option α × σ)} {fuel : Nat} {s : σ} {l acc : List α}
    (h : forLoop next (fun acc a => .ok (acc ++ [a])) fuel s acc = .ok l) :
    ∃ l' s' s'', l = acc ++ l' ∧ Trace next s l' s' ∧ next s' = .ok (none, s'') := by
  induction fuel generalizing s acc with
  | zero => simp [forLoop] at h
  | succ n ih =>
    simp only [forLoop] at h
    rw [Out.bind_eq_ok] at h
    obtain ⟨⟨o, s1⟩, h1, h2⟩ := h
    cases o with
    | none =>
      simp only [Out.ok.injEq] at h2
      exact ⟨[], s, s1, by simp [h2], .nil s, h1⟩
    | some a =>
      simp only [Out.ok_bind] at h2
      obtain ⟨l', s', s'', e, t, he⟩ := ih h2
      exact ⟨a :: l', s', s'', by simp [e], .cons _ _ _ _ _ h1 t, he⟩

theorem BreadthFirst.next_none {g : GraphI} {b b' : BreadthFirst}
    (h : BreadthFirst.next g b = .ok (none, b')) : b' = b := by
  unfold BreadthFirst.next at h
  split at h
  · simp at h; exact h.symm
  · split at h
    · simp at h
    · rw [Out.bind_eq_ok] at h; obtain ⟨_, _, h⟩ := h; simp at h

theorem DepthFirst.next_none {g : GraphI} {b b' : DepthFirst}
    (h : DepthFirst.next g b = .ok (none, b')) : b' = b := by
  unfold DepthFirst.next at h
  split at h
  · simp at h; exact h.symm
  · split at h
    · simp at h
    · rw [Out.bind_eq_ok] at h; obtain ⟨_, _, h⟩ := h; simp at h

theorem BreadthFirst.run_of_collect {g : GraphI} {root fuel : Nat} {steps : List Step}
    (h : (BreadthFirst.new g root >>= collect (BreadthFirst.next g) fuel) = .ok steps) :
    BreadthFirst.Run g root steps := by
  rw [Out.bind_eq_ok] at h
  obtain ⟨b, h1, h2⟩ := h
  obtain ⟨l', s', s'', rfl, t, he⟩ := trace_of_collect h2
  obtain rfl := next_none he
  exact ⟨b, h1, endsAfter_of_trace (by simpa using t) he⟩

theorem DepthFirst.run_of_collect {g : GraphI} {root fuel : Nat} {steps : List Step}
    (h : (DepthFirst.new g root >>= collect (DepthFirst.next g) fuel) = .ok steps) :
    DepthFirst.Run g root steps := by
  rw [Out.bind_eq_ok] at h
  obtain ⟨b, h1, h2⟩ := h
  obtain ⟨l', s', s'', rfl, t, he⟩ := trace_of_collect h2
  obtain rfl := next_none he
  exact ⟨b, h1, endsAfter_of_trace (by simpa using t) he⟩

/-- The steps of a run carry the invariant. -/
theorem BreadthFirst.Run.inv {g : GraphI} (hg : g.Lawful) {root : Nat} {steps : List Step}
    (h : BreadthFirst.Run g root steps) :
    root ∈ g.nodes ∧ ∃ b, Inv g root steps b ∧ b.queue = [] := by
  obtain ⟨b, h1, h2⟩ := h
  have hr : root ∈ g.nodes := by
    by_contra hc
    simp [BreadthFirst.new, hg.neighbors_err root hc] at h1
  obtain ⟨b0, l, b', e, t, he, i, q⟩ := BreadthFirst.run hg hr
  rw [h1] at e
  injection e with e; subst e
  have := endsAfter_unique h2 (endsAfter_of_trace t he)
  subst this
  exact ⟨hr, b', i, q⟩

theorem DepthFirst.Run.inv {g : GraphI} (hg : g.Lawful) {root : Nat} {steps : List Step}
    (h : DepthFirst.Run g root steps) :
    root ∈ g.nodes ∧ ∃ d d', DepthFirst.new g root = .ok d ∧ Trace (DepthFirst.next g) d steps d' ∧
      DepthFirst.next g d' = .ok (none, d') ∧ Inv g root steps d' ∧ d'.stack = [] := by
  obtain ⟨b, h1, h2⟩ := h
  have hr : root ∈ g.nodes := by
    by_contra hc
    simp [DepthFirst.new, hg.neighbors_err root hc] at h1
  obtain ⟨b0, l, b', e, t, he, i, q⟩ := DepthFirst.run hg hr
  have e' := e
  rw [h1] at e
  injection e with e; subst e
  have := endsAfter_unique h2 (endsAfter_of_trace t he)
  subst this
  exact ⟨hr, b, b', e', t, he, i, q⟩

theorem DepthFirst.run_run {g : GraphI} (hg : g.Lawful) {root : Nat} (hr : root ∈ g.nodes) :
    ∃ steps, DepthFirst.Run g root steps := by
  obtain ⟨b0, l, b', e, t, he, -⟩ := DepthFirst.run hg hr
  exact ⟨l, b0, e, endsAfter_of_trace t he⟩

theorem BreadthFirst.run_run {g : GraphI} (hg : g.Lawful) {root : Nat} (hr : root ∈ g.nodes) :
    ∃ steps, BreadthFirst.Run g root steps := by
  obtain ⟨b0, l, b', e, t, he, -⟩ := BreadthFirst.run hg hr
  exact ⟨l, b0, e, endsAfter_of_trace t he⟩

/-- If no two steps join the same two nodes, there are at most as many steps as edges. -/
theorem length_le_size {g : GraphI} (hg : g.Lawful) (hl : g.Loopless) {st : List Step}
    (ha : ∀ s ∈ st, g.Adj s.sid s.tid) (h1 : ∀ u v, u ≠ v → joinCount u v st ≤ 1) :
    st.length ≤ g.size := by
  rw [hg.size_eq]
  have hne : ∀ s ∈ st, s.sid ≠ s.tid := fun s hs e => hl s.sid (by simpa [← e] using ha s hs)
  let f : Step → Nat × Nat := fun s => if (s.sid, s.tid) ∈ g.edges then (s.sid, s.tid) else (s.tid, s.sid)
  have hf : ∀ s ∈ st, f s ∈ g.edges := by
    intro s hs
    simp only [f]
    split
    · assumption
    · rename_i h
      exact (hg.adj_edges _ _ (hne s hs) (ha s hs)).resolve_left h
  have hj : ∀ (s : Step) (u v : Nat), f s = (u, v) → (s.sid = u ∧ s.tid = v) ∨ (s.sid = v ∧ s.tid = u) := by
    intro s u v h
    simp only [f] at h
    split at h <;> simp at h <;> omega
  have hnd : (st.map f).Nodup := by
    rw [List.nodup_iff_count_le_one]
    rintro ⟨u, v⟩
    by_cases hm : (u, v) ∈ st.map f
    · obtain ⟨s, hs, e⟩ := List.mem_map.1 hm
      have huv : u ≠ v := by
        have := hne s hs
        rcases hj s u v e with ⟨rfl, rfl⟩ | ⟨rfl, rfl⟩
        · exact this
        · exact this.symm
      refine le_trans ?_ (h1 u v huv)
      unfold joinCount List.count
      rw [List.countP_map]
      apply List.countP_mono_left
      intro x hx hxe
      simpa using hj x u v (by simpa using hxe)
    · rw [List.count_eq_zero.2 hm]; omega
  have := (List.subperm_of_subset hnd (l₂ := g.edges) (by
    intro e he
    obtain ⟨s, hs, rfl⟩ := List.mem_map.1 he
    exact hf s hs)).length_le
  simpa using this

end Gamma
