import Verif.Props.Sharp
import Verif.Proofs.Rerun
/-
How deep a depth-first traversal goes, and what it discovers of complete multipartite graphs.
-/
namespace Gamma
namespace DepthFirst
variable {g : GraphI} {root : Nat} {steps : List Step} {d : DepthFirst}

theorem Truthful.pre {st pre post : List Step} (h : Truthful root st) (e : st = pre ++ post) : Truthful root pre :=
  fun p x q e' => h p x (q ++ post) (by rw [e, e']; simp)

theorem Inv2.truth_pre (i : Inv2 g root steps d) {pre post : List Step} (e : steps = pre ++ post) : Truthful root pre :=
  Truthful.pre i.inv.truth e

/-- An edge from a discovered node to one not discovered waits, unless it was forgotten. -/
theorem waiting_of (htr : Truthful root steps) {q w : Nat} (hq : q ∈ discovered root steps) (ha : g.simple.Adj q w) (hg : g.Lawful)
    (hw : w ∉ discovered root steps)
    (hno : ∀ pre s post, steps = pre ++ s :: post → s.cut = false → q ∈ discovered root pre → s.sid ≠ q → ¬ g.Adj s.tid q) :
    Waiting g root steps q w where
  discovered := hq
  ne := ha.ne
  adj := ((hg.simple_adj).1 ha).2
  not_parent := by
    rintro s hs - ⟨rfl, -⟩
    exact hw (htr.sid_mem hs)
  not_reported := by
    rintro s hs ⟨-, rfl⟩
    exact hw (htr.tid_mem hs)
  not_dropped := by
    rintro ⟨pre, s, post, e, h1, h2, -, -, ⟨h3, h4⟩ | ⟨rfl, -⟩⟩
    · exact hno pre s post e h1 h2 h3 h4
    · exact hw (htr.tid_mem (by rw [e]; simp))

theorem waiting_last (htr : Truthful root steps) {q w : Nat} (hq : (discovered root steps).getLast? = some q)
    (ha : g.simple.Adj q w) (hg : g.Lawful) (hw : w ∉ discovered root steps) : Waiting g root steps q w := by
  refine waiting_of htr (List.mem_of_getLast? hq) ha hg hw ?_
  intro pre s post e hc hm _ _
  have hd : discovered root steps = discovered root pre ++ s.tid :: (post.filter (fun s => !s.cut)).map Step.tid := by
    rw [e, discovered_append]; simp [hc]
  have hn := htr.nodup
  rw [hd, List.nodup_append] at hn
  rw [hd, List.getLast?_append] at hq
  have hq' : q ∈ s.tid :: (post.filter (fun s => !s.cut)).map Step.tid := by
    cases h : (s.tid :: (post.filter (fun s => !s.cut)).map Step.tid).getLast? with
    | none => simp at h
    | some a =>
      rw [h] at hq
      simp at hq; subst hq
      exact List.mem_of_getLast? h
  exact hn.2.2 q hm q hq' rfl

theorem exists_last {P : Nat → Prop} {l : List Nat} (h : ∃ x ∈ l, P x) : ∃ A q B, l = A ++ q :: B ∧ P q ∧ ∀ b ∈ B, ¬ P b := by
  classical
  induction l with
  | nil => simp at h
  | cons a l ih =>
    by_cases hl : ∃ x ∈ l, P x
    · obtain ⟨A, q, B, rfl, h1, h2⟩ := ih hl
      exact ⟨a :: A, q, B, rfl, h1, h2⟩
    · obtain ⟨x, hx, hP⟩ := h
      rcases List.mem_cons.1 hx with rfl | hx
      · exact ⟨[], x, l, rfl, hP, fun b hb hb' => hl ⟨b, hb, hb'⟩⟩
      · exact absurd ⟨x, hx, hP⟩ hl

theorem mem_after {A B : List Nat} {q x : Nat} (hn : (A ++ q :: B).Nodup) (hx : x ∈ A ++ q :: B)
    (h : (A ++ q :: B).idxOf q ≤ (A ++ q :: B).idxOf x) (hne : x ≠ q) : x ∈ B := by
  rw [List.nodup_append] at hn
  have hqA : q ∉ A := fun hc => hn.2.2 q hc q (by simp) rfl
  rw [List.idxOf_append_of_notMem hqA] at h
  simp only [List.idxOf_cons_self, add_zero] at h
  rcases List.mem_append.1 hx with hx | hx
  · rw [List.idxOf_append_of_mem hx] at h
    have := List.idxOf_lt_length_of_mem hx
    omega
  · rcases List.mem_cons.1 hx with hx | hx
    · exact absurd hx hne
    · exact hx

/-- Complete multipartite components are discovered. -/
theorem multipartite_closed (hg : g.Lawful) (h : Run g root steps)
    (hM : ∀ x z y, g.simple.Reachable root x → g.simple.Adj x z → g.simple.Reachable x y → g.simple.Adj x y ∨ g.simple.Adj y z) (v : Nat)
    (hv : g.simple.Reachable root v) : v ∈ discovered root steps := by
  classical
  obtain ⟨d, i, hq⟩ := h.inv2 hg
  by_contra hvD
  have hreach := i.inv.truth.reachable hg i.inv.step_adj
  -- some discovered node has an undiscovered neighbor
  obtain ⟨u, v, hu, hva, hvD⟩ : ∃ u v, u ∈ discovered root steps ∧ g.Adj u v ∧ v ∉ discovered root steps := by
    by_contra hc
    push Not at hc
    exact hvD (closed_reachable hg (by simp [discovered]) (fun a b ha hab => hc a b ha hab) hv)
  have hne : u ≠ v := by rintro rfl; exact hvD hu
  obtain ⟨A, q, B, hD, hqv, hB⟩ := exists_last (P := fun x => g.simple.Adj x v) (l := discovered root steps)
    ⟨u, hu, (hg.simple_adj).2 ⟨hne, hva⟩⟩
  have hnd := i.inv.truth.nodup
  have hqD : q ∈ discovered root steps := by rw [hD]; simp
  have hvr : g.simple.Reachable root v := (hreach q hqD).trans hqv.reachable
  have hv0 : v ≠ root := by rintro rfl; exact hvD (by simp [discovered])
  obtain ⟨pre0, s0, post0, e0, c0, m0, -, -, h0⟩ := (C24_dfs_missed_iff_partial g hg root steps h v hv0).1 hvD q hqD hqv.ne
    ((hg.simple_adj).1 hqv).2
  have h0 : s0.sid ≠ q := by
    rcases h0 with h0 | ⟨rfl, -⟩
    · exact h0.1
    · exact absurd (i.inv.truth.tid_mem (by rw [e0]; simp)) hvD
  -- the first discovery after that of `q` which is not from `q`
  have hex : ∃ n, ∃ pre s post, steps = pre ++ s :: post ∧ pre.length = n ∧ s.cut = false ∧ q ∈ discovered root pre ∧ s.sid ≠ q :=
    ⟨_, pre0, s0, post0, e0, rfl, c0, m0, h0⟩
  obtain ⟨pre, s, post, e, hlen, hc, hm, hs⟩ := Nat.find_spec hex
  have hmin := fun m hm => Nat.find_min hex (m := m) hm
  rw [← hlen] at hmin
  have htr := i.truth_pre e
  have hts := i.inv.truth pre s post e
  have hwn : s.tid ∉ discovered root pre := by
    intro hx; have := hts.2.2 hx; rw [hc] at this; simp at this
  have hsD : s.sid ∈ discovered root steps := i.inv.truth.sid_mem (by rw [e]; simp)
  have hsD' := hsD
  have hwD : s.tid ∈ discovered root steps := i.inv.truth.tid_mem (by rw [e]; simp)
  have hdd : discovered root steps = discovered root pre ++ ((s :: post).filter (fun s => !s.cut)).map Step.tid := by
    rw [e, discovered_append]
  have hidx : ∀ x ∈ discovered root pre, (discovered root steps).idxOf x = (discovered root pre).idxOf x := by
    intro x hx; rw [hdd, List.idxOf_append_of_mem hx]
  have hwB : s.tid ∈ B := by
    have h1 : (discovered root steps).idxOf q ≤ (discovered root steps).idxOf s.tid := by
      rw [hidx q hm, hdd, List.idxOf_append_of_notMem hwn]
      have := List.idxOf_lt_length_of_mem hm
      omega
    rw [hD] at h1 hnd hwD
    exact mem_after hnd hwD h1 (by rintro rfl; exact hwn hm)
  have hqw : g.simple.Adj q s.tid := by
    rcases hM q v s.tid (hreach _ hqD) hqv ((hreach _ hqD).symm.trans (hreach _ hwD)) with h1 | h1
    · exact h1
    · exact absurd h1 (hB _ hwB)
  have hwait := waiting_of htr hm hqw hg hwn (by
    intro p1 s1 p2 e1 c1 m1 n1 _
    exact hmin p1.length (by rw [e1]; simp) ⟨p1, s1, p2 ++ s :: post, by rw [e, e1]; simp, rfl, c1, m1, n1⟩)
  rcases i.choice pre s post e q s.tid hwait with ⟨h1, -⟩ | ⟨h1, -⟩
  · exact hs h1.symm
  · have h2 := Ancestor.idx_le htr h1
    rw [← hidx q hm, ← hidx _ hts.1] at h2
    rw [hD] at h2 hnd hsD
    have hsB := mem_after hnd hsD h2 hs
    have hsw : g.simple.Adj s.sid s.tid := (hg.simple_adj).2 ⟨i.inv.truth.ne (by rw [e]; simp) hc, i.inv.step_adj s (by rw [e]; simp)⟩
    rcases hM s.sid s.tid v (hreach _ hsD') hsw ((hreach _ hsD').symm.trans hvr) with h3 | h3
    · exact hB _ hsB h3
    · exact hB _ hwB h3.symm

end DepthFirst
end Gamma
