import Verif.Proofs.DfsTame
import Verif.Proofs.BfsProps
/-
Cut steps and cycles.
-/
namespace Gamma

/-- A node is discovered from one node only. -/
theorem Truthful.parent_unique {root : Nat} {st : List Step} (h : Truthful root st) {s t : Step} (hs : s ∈ st) (ht : t ∈ st)
    (hsc : s.cut = false) (htc : t.cut = false) (e : s.tid = t.tid) : s = t := by
  have hn := h.nodup
  unfold discovered at hn
  have hn := (List.nodup_cons.1 hn).2
  exact List.inj_on_of_nodup_map hn (List.mem_filter.2 ⟨hs, by simp [hsc]⟩) (List.mem_filter.2 ⟨ht, by simp [htc]⟩) e

/-- A cut step between different nodes closes a cycle. -/
theorem cut_onCycle {g : GraphI} (hg : g.Lawful) {root : Nat} {st : List Step} (h : Truthful root st)
    (hadj : ∀ s ∈ st, g.Adj s.sid s.tid) (once : ∀ u v, u ≠ v → joinCount u v st ≤ 1)
    {s : Step} (hs : s ∈ st) (hc : s.cut = true) (hne : s.sid ≠ s.tid) :
    ∃ (x : Nat) (c : g.simple.Walk x x), c.IsCycle ∧ s(s.sid, s.tid) ∈ c.edges := by
  have ha : g.simple.Adj s.sid s.tid := (hg.simple_adj).2 ⟨hne, hadj s hs⟩
  refine SimpleGraph.adj_and_reachable_delete_edges_iff_exists_cycle.1 ⟨ha, ?_⟩
  have key := h.reachable_in (g.simple \ SimpleGraph.fromEdgeSet {s(s.sid, s.tid)}) (fun t ht htc => ?_)
  · exact ((key _ (h.sid_mem hs)).symm).trans (key _ (h.tid_mem hs))
  · rw [SimpleGraph.sdiff_adj]
    refine ⟨(hg.simple_adj).2 ⟨h.ne ht htc, hadj t ht⟩, ?_⟩
    rw [SimpleGraph.fromEdgeSet_adj]
    rintro ⟨h2, -⟩
    have h2 : s(t.sid, t.tid) = s(s.sid, s.tid) := by simpa using h2
    rw [Sym2.eq_iff] at h2
    have hst : s ≠ t := by rintro rfl; rw [hc] at htc; simp at htc
    have := DepthFirst.two_le_joinCount hs ht hst (.inl ⟨rfl, rfl⟩) (by tauto)
    have := once s.sid s.tid hne
    omega

/-- If every edge at a discovered node is a discovery step there is no cycle. -/
theorem tree_no_cycle {g : GraphI} (hg : g.Lawful) {root : Nat} {st : List Step} (h : Truthful root st)
    (tree : ∀ u ∈ discovered root st, ∀ v, u ≠ v → g.Adj u v →
      ∃ s ∈ st, s.cut = false ∧ ((s.sid = u ∧ s.tid = v) ∨ (s.sid = v ∧ s.tid = u)))
    {x : Nat} (hx : x ∈ discovered root st) : ¬ OnCycle g x := by
  rintro ⟨c, hc⟩
  have closed : ∀ u v, u ∈ discovered root st → g.simple.Adj u v → v ∈ discovered root st := by
    intro u v hu ha
    obtain ⟨hne, ha⟩ := (hg.simple_adj).1 ha
    obtain ⟨s, hs, -, ⟨-, rfl⟩ | ⟨rfl, -⟩⟩ := tree u hu v hne ha
    · exact h.tid_mem hs
    · exact h.sid_mem hs
  have walk : ∀ (a b : Nat) (w : g.simple.Walk a b), a ∈ discovered root st → ∀ y ∈ w.support, y ∈ discovered root st := by
    intro a b w
    induction w with
    | nil => intro ha y hy; simp at hy; subst hy; exact ha
    | cons hadj w ih =>
      intro ha y hy
      rw [SimpleGraph.Walk.support_cons, List.mem_cons] at hy
      rcases hy with rfl | hy
      · exact ha
      · exact ih (closed _ _ ha hadj) y hy
  have hsup := walk x x c hx
  -- the node of the cycle discovered last
  obtain ⟨y, hy, hmax⟩ := Finset.exists_max_image c.support.toFinset (fun y => (discovered root st).idxOf y)
    ⟨x, by simp⟩
  rw [List.mem_toFinset] at hy
  have hmax : ∀ z ∈ c.support, (discovered root st).idxOf z ≤ (discovered root st).idxOf y :=
    fun z hz => hmax z (List.mem_toFinset.2 hz)
  have hc' := hc.rotate hy
  have hsup' : ∀ z ∈ (c.rotate _ hy).support, z ∈ c.support := by
    intro z hz
    exact (SimpleGraph.Walk.mem_support_rotate_iff ..).1 hz
  have hnil := hc'.not_nil
  have ha := SimpleGraph.Walk.adj_snd hnil
  have hb := (SimpleGraph.Walk.adj_penultimate hnil).symm
  have hab := hc'.snd_ne_penultimate
  have parent : ∀ z, g.simple.Adj y z → z ∈ c.support → ∃ s ∈ st, s.cut = false ∧ s.sid = z ∧ s.tid = y := by
    intro z hadj hz
    obtain ⟨hne, hadj⟩ := (hg.simple_adj).1 hadj
    obtain ⟨s, hs, hsc, ⟨e1, e2⟩ | ⟨e1, e2⟩⟩ := tree y (hsup y hy) z hne hadj
    · have := h.idx hs hsc
      rw [e1, e2] at this
      have := hmax z hz
      omega
    · exact ⟨s, hs, hsc, e1, e2⟩
  obtain ⟨s, hs, hsc, e1, e2⟩ := parent _ ha (hsup' _ (SimpleGraph.Walk.getVert_mem_support ..))
  obtain ⟨t, ht, htc, e3, e4⟩ := parent _ hb (hsup' _ (SimpleGraph.Walk.getVert_mem_support ..))
  have := h.parent_unique hs ht hsc htc (e2.trans e4.symm)
  subst this
  exact hab (e1.symm.trans e3)

theorem onCycle_of_edge {g : GraphI} {u v x : Nat} {c : g.simple.Walk x x} (hc : c.IsCycle) (he : s(u, v) ∈ c.edges) :
    OnCycle g u := by
  have hu := c.fst_mem_support_of_mem_edges he
  exact ⟨c.rotate _ hu, hc.rotate hu⟩

theorem exists_joinCount {u v : Nat} {st : List Step} (h : 1 ≤ joinCount u v st) :
    ∃ s ∈ st, (s.sid = u ∧ s.tid = v) ∨ (s.sid = v ∧ s.tid = u) := by
  unfold joinCount at h
  obtain ⟨s, hs, h⟩ := List.countP_pos_iff.1 h
  exact ⟨s, hs, by simpa using h⟩

namespace DepthFirst
variable {g : GraphI} {root : Nat} {st : List Step} {d : DepthFirst}

/-- Without a cut step between different nodes, no discovered node is adjacent to an earlier one it was not discovered
from. -/
theorem Inv2.no_back (h : Inv2 g root st d) (hq : d.stack = [])
    (hcut : ∀ s ∈ st, s.cut = true → s.sid = s.tid) :
    ∀ n pre s post, st = pre ++ s :: post → post.length = n → s.cut = false →
      ∀ w ∈ discovered root pre, w ≠ s.sid → ¬ g.Adj s.tid w := by
  intro n
  induction n using Nat.strong_induction_on with
  | _ n ih =>
    intro pre s post e hn hc w hw hws hadj
    have ht := h.inv.truth pre s post e
    have hs : s ∈ st := by rw [e]; simp
    have htid : s.tid ∉ discovered root pre := by
      intro hx; have := ht.2.2 hx; rw [hc] at this; simp at this
    have hne : s.tid ≠ w := fun e' => htid (e' ▸ hw)
    have hwst : w ∈ discovered root st := by rw [e]; exact discovered_mono hw
    -- `w` did not discover `s.tid`
    have hp : ∀ t ∈ st, t.cut = false → ¬ (t.sid = w ∧ t.tid = s.tid) := by
      rintro t ht htc ⟨e1, e2⟩
      have := h.inv.truth.parent_unique ht hs htc hc e2
      subst this
      exact hws e1.symm
    rcases h.fate s.tid (h.inv.truth.tid_mem hs) w hne hadj hp with h1 | h1 | h1
    · -- reported: it would be a cut step
      obtain ⟨t, ht, e'⟩ := List.mem_map.1 h1
      simp only [Step.pair, Prod.mk.injEq] at e'
      have hcut' := hcut t ht
      cases htc : t.cut with
      | true => exact hne (by rw [← e'.1, ← e'.2]; exact hcut' htc)
      | false =>
        have h1 := h.inv.truth.idx ht htc
        rw [e'.1, e'.2, e, discovered_append, List.idxOf_append_of_mem hw, List.idxOf_append_of_notMem htid] at h1
        have := List.idxOf_lt_length_of_mem hw
        omega
    · rw [hq] at h1; simp at h1
    · -- forgotten: by a later discovery with the same defect
      obtain ⟨pre', s', post', e', hc', hu, -, -, hor⟩ := h1
      have hlt : post'.length < n := by
        by_contra hle
        -- then `pre'` is a prefix of `pre`
        have hpp : pre' <+: pre := by
          have h1 : pre' <+: st := ⟨_, e'.symm⟩
          have h2 : pre <+: st := ⟨_, e.symm⟩
          refine List.prefix_of_prefix_length_le h1 h2 ?_
          have e1 := congrArg List.length e
          have e2 := congrArg List.length e'
          simp at e1 e2
          omega
        obtain ⟨r, rfl⟩ := hpp
        exact htid (discovered_mono hu)
      have h' := h.inv.truth pre' s' post' e'
      have htid' : s'.tid ∉ discovered root pre' := by
        intro hx; have := h'.2.2 hx; rw [hc'] at this; simp at this
      rcases hor with ⟨h2, h3⟩ | ⟨h2, -⟩
      · exact ih _ hlt pre' s' post' e' rfl hc' s.tid hu (fun e => h2 e.symm) h3
      · apply htid'
        rw [h2]
        have hpp : pre <+: pre' := by
          have h1 : pre' <+: st := ⟨_, e'.symm⟩
          have h2 : pre <+: st := ⟨_, e.symm⟩
          refine List.prefix_of_prefix_length_le h2 h1 ?_
          have e1 := congrArg List.length e
          have e2 := congrArg List.length e'
          simp at e1 e2
          omega
        obtain ⟨r, rfl⟩ := hpp
        exact discovered_mono hw

/-- Without a cut step between different nodes, every edge at a discovered node is a discovery step. -/
theorem Inv2.tree (h : Inv2 g root st d) (hq : d.stack = [])
    (hcut : ∀ s ∈ st, s.cut = true → s.sid = s.tid) :
    ∀ u ∈ discovered root st, ∀ v, u ≠ v → g.Adj u v →
      ∃ s ∈ st, s.cut = false ∧ ((s.sid = u ∧ s.tid = v) ∨ (s.sid = v ∧ s.tid = u)) := by
  intro u hu v hne hadj
  by_cases hp : ∀ s ∈ st, s.cut = false → ¬ (s.sid = v ∧ s.tid = u)
  · rcases h.fate u hu v hne hadj hp with h1 | h1 | h1
    · obtain ⟨t, ht, e⟩ := List.mem_map.1 h1
      simp only [Step.pair, Prod.mk.injEq] at e
      refine ⟨t, ht, ?_, .inl e⟩
      cases htc : t.cut with
      | true => exact absurd (hcut t ht htc) (by rw [e.1, e.2]; exact hne)
      | false => rfl
    · rw [hq] at h1; simp at h1
    · exfalso
      obtain ⟨pre, s, post, e, hc, hu', -, -, hor⟩ := h1
      rcases hor with ⟨h2, h3⟩ | ⟨-, w, hw, h3, h4⟩
      · exact h.no_back hq hcut _ pre s post e rfl hc u hu' (fun e => h2 e.symm) h3
      · exact h.no_back hq hcut _ pre s post e rfl hc w hw h3 h4
  · push Not at hp
    obtain ⟨s, hs, hc, e⟩ := hp
    exact ⟨s, hs, hc, .inr e⟩

end DepthFirst
end Gamma
