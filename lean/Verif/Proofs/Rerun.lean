import Verif.Proofs.Cycles
import Verif.Proofs.GreedyMore
/-
Traversing again the graph a depth-first traversal was converted to.
-/
namespace Gamma
open DepthFirst

/-- Ancestors in the discovery tree: no two different nodes are each other's. -/
theorem Ancestor.antisymm {root : Nat} {st : List Step} (h : Truthful root st) {u v : Nat}
    (hu : u ∈ discovered root st) (a : Ancestor st u v) (b : Ancestor st v u) : u = v := by
  have h1 := a.idx_le h
  have h2 := b.idx_le h
  exact (List.idxOf_inj hu).1 (by omega)

theorem Truthful.prefix {root : Nat} {pre post : List Step} (h : Truthful root (pre ++ post)) : Truthful root pre := by
  intro p s q e
  exact h p s (q ++ post) (by rw [e]; simp)

theorem joinCount_append (u v : Nat) (a b : List Step) : joinCount u v (a ++ b) = joinCount u v a + joinCount u v b := by
  simp [joinCount]

theorem joinCount_pos {u v : Nat} {a : List Step} {s : Step} (hs : s ∈ a)
    (h : (s.sid = u ∧ s.tid = v) ∨ (s.sid = v ∧ s.tid = u)) : 1 ≤ joinCount u v a := by
  unfold joinCount
  exact List.countP_pos_iff.2 ⟨s, hs, by simpa using h⟩

/-- Just before it is taken, a step is an edge still to be reported. -/
theorem DepthFirst.Inv2.step_waiting {g : GraphI} {root : Nat} {st : List Step} {d : DepthFirst}
    (hl : g.Loopless) (i : Inv2 g root st d) {pre : List Step} {t : Step} {post : List Step}
    (e : st = pre ++ t :: post) : Waiting g root pre t.sid t.tid := by
  have ht : t ∈ st := by rw [e]; simp
  have ha := i.inv.step_adj t ht
  have hne : t.sid ≠ t.tid := by intro h; rw [← h] at ha; exact hl _ ha
  have honce := i.inv.join_once hne
  have two : ∀ s ∈ pre, ¬ ((s.sid = t.sid ∧ s.tid = t.tid) ∨ (s.sid = t.tid ∧ s.tid = t.sid)) := by
    intro s hs h
    rw [e, show pre ++ t :: post = pre ++ ([t] ++ post) by simp, joinCount_append, joinCount_append] at honce
    have h1 := joinCount_pos hs h
    have h2 : 1 ≤ joinCount t.sid t.tid [t] := joinCount_pos (by simp) (.inl ⟨rfl, rfl⟩)
    omega
  refine ⟨(i.inv.truth pre t post e).1, hne, ha, fun s hs _ h => two s hs (.inr h), fun s hs h => two s hs (.inl h), ?_⟩
  rintro ⟨p, s, q, e', hd⟩
  refine (i.gone t.sid t.tid ⟨p, s, q ++ t :: post, by rw [e, e']; simp, hd⟩).1 ?_
  exact List.mem_map.2 ⟨t, ht, rfl⟩

/-- What is still to be reported depends on the edges at the discovered nodes only. -/
theorem DepthFirst.waiting_congr {g h : GraphI} {root : Nat} {pre : List Step} {u v : Nat}
    (hadj : ∀ u ∈ discovered root pre, ∀ v, g.Adj u v ↔ h.Adj u v) (w : Waiting g root pre u v) :
    Waiting h root pre u v := by
  refine ⟨w.discovered, w.ne, (hadj u w.discovered v).1 w.adj, w.not_parent, w.not_reported, fun hd => w.not_dropped ?_⟩
  obtain ⟨p, s, q, e, hc, h1, h2, h3, h4⟩ := hd
  have hs : s.tid ∈ discovered root pre := mem_discovered.2 (.inr ⟨s, by rw [e]; simp, hc, rfl⟩)
  refine ⟨p, s, q, e, hc, h1, h2, h3, ?_⟩
  rcases h4 with ⟨h4, h5⟩ | ⟨h4, x, h5, h6, h7⟩
  · exact .inl ⟨h4, (hadj _ hs _).2 h5⟩
  · exact .inr ⟨h4, x, h5, h6, (hadj _ hs _).2 h7⟩

theorem mem_incident {v x : Nat} {es : List (Nat × Nat)} : x ∈ incident v es ↔ (v, x) ∈ es ∨ (x, v) ∈ es := by
  unfold incident
  rw [List.mem_flatMap]
  constructor
  · rintro ⟨⟨a, b⟩, he, hx⟩
    rcases List.mem_append.1 hx with h | h
    · split at h
      · next c => simp at h; simp at c; subst c h; exact .inl he
      · simp at h
    · split at h
      · next c => simp at h; simp at c; subst c h; exact .inr he
      · simp at h
  · rintro (h | h)
    · exact ⟨_, h, by simp⟩
    · exact ⟨_, h, by simp⟩

/-- If `a` comes before `b` in a list in which `b` occurs only after the part `l`, and is not in `l`, ... -/
theorem before_of_sublist {α : Type} {a b : α} {l r : List α} (hnd : (l ++ b :: r).Nodup) (h : [a, b].Sublist (l ++ b :: r)) :
    a ∈ l := by
  rw [List.nodup_append] at hnd
  obtain ⟨-, h2, h3⟩ := hnd
  rw [List.nodup_cons] at h2
  rw [List.sublist_append_iff] at h
  obtain ⟨l1, l2, e, s1, s2⟩ := h
  rcases l1 with - | ⟨x, l1⟩
  · simp at e; subst e
    exfalso
    have hsub : [b].Sublist r := by
      cases s2 with
      | cons _ h => exact (List.sublist_of_cons_sublist h)
      | cons_cons _ h => exact h
    exact h2.1 (hsub.subset (by simp))
  · simp at e
    rw [e.1]
    exact s1.subset (by simp)

/-- If every edge at a discovered node is reported, the graph built from the steps is traversed by the same steps. -/
theorem DepthFirst.rerun {g h : GraphI} (hg : g.Lawful) (hh : h.Lawful) (gl : g.Loopless) (hl : h.Loopless) {root : Nat}
    {S T : List Step} (rg : DepthFirst.Run g root S) (rh : DepthFirst.Run h root T)
    (hadj : ∀ u ∈ discovered root S, ∀ v, g.Adj u v ↔ h.Adj u v)
    (hnbr : ∀ u ∈ discovered root S, h.nbr u = incident u (S.map Step.pair)) : T = S := by
  obtain ⟨d, i, q⟩ := rg.inv2 hg
  obtain ⟨d', j, q'⟩ := rh.inv2 hh
  have key : ∀ rest pre, S = pre ++ rest → pre <+: T → T = S := by
    intro rest
    induction rest with
    | nil =>
      intro pre e hp
      simp at e; subst e
      obtain ⟨t, rfl⟩ := hp
      cases t with
      | nil => simp
      | cons t' T' =>
        exfalso
        have w := j.step_waiting hl rfl
        have w' : Waiting g root S t'.sid t'.tid := waiting_congr (fun u hu v => (hadj u hu v).symm) w
        have := i.waiting w'
        rw [q] at this; simp at this
    | cons t rest ih =>
      intro pre e hp
      obtain ⟨T0, rfl⟩ := hp
      have hpre : ∀ u ∈ discovered root pre, u ∈ discovered root S := by
        intro u hu; rw [e]; exact discovered_mono hu
      have w := i.step_waiting gl e
      have w1 : Waiting h root pre t.sid t.tid := waiting_congr (fun u hu v => hadj u (hpre u hu) v) w
      cases T0 with
      | nil =>
        exfalso
        rw [List.append_nil] at j
        have := j.waiting w1
        rw [q'] at this; simp at this
      | cons t' T' =>
        have v := j.step_waiting hl rfl
        have v1 : Waiting g root pre t'.sid t'.tid := waiting_congr (fun u hu v => (hadj u (hpre u hu) v).symm) v
        have htp : Truthful root pre := by have := i.inv.truth; rw [e] at this; exact this.prefix
        have hpair : t.sid = t'.sid ∧ t.tid = t'.tid := by
          rcases j.choice pre t' T' rfl _ _ w1 with h1 | ⟨a1, o1⟩
          · exact h1
          · rcases i.choice pre t rest e _ _ v1 with h2 | ⟨a2, -⟩
            · exact ⟨h2.1.symm, h2.2.symm⟩
            · have hsid := Ancestor.antisymm htp w.discovered a1 a2
              refine ⟨hsid, ?_⟩
              have hsub := o1 hsid
              have hnd : (h.nbr t.sid).Nodup := by
                rw [List.nodup_iff_count_le_one]
                intro x
                obtain ⟨l, el⟩ := hh.neighbors_ok t.sid (hh.adj_src w1.adj)
                by_cases hx : t.sid = x
                · subst hx
                  rw [List.count_eq_zero.2 (by rw [GraphI.mem_nbr]; exact hl _)]; omega
                · have := hh.neighbor_once t.sid x l el hx
                  simpa [GraphI.nbr, el] using this
              rw [hnbr t.sid (hpre _ w.discovered), e] at hsub hnd
              have hinc : incident t.sid ((pre ++ t :: rest).map Step.pair) =
                  incident t.sid (pre.map Step.pair) ++ t.tid :: incident t.sid (rest.map Step.pair) := by
                rw [List.map_append, List.map_cons, DefaultGraph.incident_append]
                congr 1
                simp [incident, Step.pair, w.ne]
              rw [hinc] at hsub hnd
              have hm := before_of_sublist hnd hsub
              exfalso
              have hne' : t'.sid ≠ t'.tid := v.ne
              have honce := j.inv.join_once hne'
              rw [show pre ++ t' :: T' = pre ++ ([t'] ++ T') by simp, joinCount_append, joinCount_append] at honce
              have h2 : 1 ≤ joinCount t'.sid t'.tid [t'] := joinCount_pos (by simp) (.inl ⟨rfl, rfl⟩)
              have h1 : 1 ≤ joinCount t'.sid t'.tid pre := by
                rw [mem_incident] at hm
                rcases hm with hm | hm <;> obtain ⟨s, hs, es⟩ := List.mem_map.1 hm <;>
                  simp only [Step.pair, Prod.mk.injEq] at es
                · exact joinCount_pos hs (.inl ⟨by rw [es.1, hsid], es.2⟩)
                · exact joinCount_pos hs (.inr ⟨es.1, by rw [es.2, hsid]⟩)
              omega
        have ht : t' = t := by
          have c1 := (i.inv.truth pre t rest e).2
          have c2 := (j.inv.truth pre t' T' rfl).2
          obtain ⟨a, b, c⟩ := t
          obtain ⟨a', b', c'⟩ := t'
          obtain ⟨rfl, rfl⟩ := hpair
          simp only at c1 c2
          have : c' = c := by
            rw [Bool.eq_iff_iff]; exact c2.trans c1.symm
          rw [this]
        subst ht
        refine ih (pre ++ [t']) (by rw [e]; simp) ⟨T', by simp⟩
  exact key S [] rfl (List.nil_prefix)

end Gamma
