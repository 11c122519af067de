import Verif.Proofs.Greedy
import Verif.Proofs.DfsOrder
/-
What `greedy` pairs, exactly.
-/
namespace Gamma
open Pairing

/-- Only one choice of steps is first come, first served. -/
theorem FirstCome.unique {S : List Step} {K K' : Nat → Prop} (h : FirstCome S K) (h' : FirstCome S K') (i : Nat)
    (hi : i < S.length) : K i ↔ K' i := by
  induction i using Nat.strong_induction_on with
  | _ i ih =>
    have e : S[i]? = some S[i] := List.getElem?_eq_getElem hi
    rw [h i _ e, h' i _ e]
    refine and_congr_right fun _ => forall₄_congr fun j t hj _ => ?_
    rw [ih j hj (by omega)]

/-- The loop over the steps, from the start. -/
theorem greedyFold_exact (S : List Step) : ∃ s K, S.foldlM greedyStep ([], Pairing.new) = .ok s ∧ s.2.Symmetric ∧
    FirstCome S K ∧ (∀ x, x ∈ s.1 ↔ ∃ j t, S[j]? = some t ∧ (t.sid = x ∨ (K j ∧ t.tid = x))) ∧
    ∀ u v, s.2.get u = some v ↔ ∃ i t, S[i]? = some t ∧ K i ∧ ((t.sid = u ∧ t.tid = v) ∨ (t.sid = v ∧ t.tid = u)) := by
  induction S using List.reverseRecOn with
  | nil =>
    refine ⟨_, fun _ => False, rfl, symmetric_new, ?_, ?_, ?_⟩
    · intro i s h; simp at h
    · simp
    · intro u v; simp [Pairing.new, Pairing.get]
  | append_singleton S a ih =>
    obtain ⟨s, K, e, hsym, hK, hseen, hget⟩ := ih
    -- lookups in the longer list
    have look : ∀ j t, (S ++ [a])[j]? = some t ↔ S[j]? = some t ∨ (j = S.length ∧ t = a) := by
      intro j t
      rcases Nat.lt_trichotomy j S.length with h | h | h
      · rw [List.getElem?_append_left h]
        constructor
        · exact .inl
        · rintro (h1 | ⟨h1, -⟩)
          · exact h1
          · omega
      · subst h
        simp [eq_comm]
      · rw [List.getElem?_eq_none (by simp; omega), List.getElem?_eq_none (by omega)]
        simp; omega
    have lt : ∀ {j t}, S[j]? = some t → j < S.length := fun h => (List.getElem?_eq_some_iff.1 h).1
    -- whether the new step is taken
    have core : ∀ T : Prop, (T ↔ a.sid ≠ a.tid ∧ a.sid ∉ s.1 ∧ a.tid ∉ s.1) →
        FirstCome (S ++ [a]) (fun i => (i < S.length ∧ K i) ∨ (i = S.length ∧ T)) := by
      intro T hT i b hb
      rcases (look i b).1 hb with hb | ⟨rfl, rfl⟩
      · beta_reduce
        have hi := lt hb
        have e1 : ((i < S.length ∧ K i) ∨ (i = S.length ∧ T)) ↔ K i := by
          constructor
          · rintro (h | h)
            · exact h.2
            · omega
          · exact fun h => .inl ⟨hi, h⟩
        rw [e1, hK i b hb]
        refine and_congr_right fun _ => forall₃_congr fun j t hj => ?_
        rw [look]
        have e2 : (S[j]? = some t ∨ (j = S.length ∧ t = a)) ↔ S[j]? = some t := by
          constructor
          · rintro (h | h)
            · exact h
            · omega
          · exact .inl
        rw [e2]
        refine forall_congr' fun ht => and_congr_right fun _ => and_congr_right fun _ => ?_
        have := lt ht
        constructor
        · intro h h'; exact h (by rcases h' with h' | h'; · exact h'.2
                                  · omega)
        · intro h h'; exact h (.inl ⟨this, h'⟩)
      · beta_reduce
        have e1 : ((S.length < S.length ∧ K S.length) ∨ (S.length = S.length ∧ T)) ↔ T := by simp
        rw [e1, hT, hseen, hseen]
        refine and_congr_right fun _ => ?_
        constructor
        · rintro ⟨h1, h2⟩ j t hj ht
          have ht : S[j]? = some t := by
            rcases (look j t).1 ht with h | h
            · exact h
            · omega
          refine ⟨fun h => h1 ⟨j, t, ht, .inl h⟩, fun h => h2 ⟨j, t, ht, .inl h⟩, ?_⟩
          rintro (h | h)
          · exact ⟨fun h' => h1 ⟨j, t, ht, .inr ⟨h.2, h'⟩⟩, fun h' => h2 ⟨j, t, ht, .inr ⟨h.2, h'⟩⟩⟩
          · omega
        · intro h
          constructor
          · rintro ⟨j, t, ht, h'⟩
            obtain ⟨h1, h2, h3⟩ := h j t (lt ht) ((look j t).2 (.inl ht))
            rcases h' with h' | ⟨h', h''⟩
            · exact h1 h'
            · exact (h3 (.inl ⟨lt ht, h'⟩)).1 h''
          · rintro ⟨j, t, ht, h'⟩
            obtain ⟨h1, h2, h3⟩ := h j t (lt ht) ((look j t).2 (.inl ht))
            rcases h' with h' | ⟨h', h''⟩
            · exact h2 h'
            · exact (h3 (.inl ⟨lt ht, h'⟩)).2 h''
    -- the nodes seen and the pairs afterwards
    have ex : ∀ (T : Prop) (P : Nat → Step → Prop → Prop), (∀ j t A B, (A ↔ B) → (P j t A ↔ P j t B)) →
        ((∃ j t, (S ++ [a])[j]? = some t ∧ P j t ((j < S.length ∧ K j) ∨ (j = S.length ∧ T))) ↔
          (∃ j t, S[j]? = some t ∧ P j t (K j)) ∨ P S.length a T) := by
      intro T P hP
      constructor
      · rintro ⟨j, t, ht, h⟩
        rcases (look j t).1 ht with ht | ⟨rfl, rfl⟩
        · have := lt ht
          refine .inl ⟨j, t, ht, (hP _ _ _ _ ?_).1 h⟩
          constructor
          · rintro (h | h)
            · exact h.2
            · omega
          · exact fun h => .inl ⟨this, h⟩
        · exact .inr ((hP _ _ _ _ (by simp)).1 h)
      · rintro (⟨j, t, ht, h⟩ | h)
        · have := lt ht
          refine ⟨j, t, (look j t).2 (.inl ht), (hP _ _ _ _ ?_).1 h⟩
          constructor
          · exact fun h => .inl ⟨this, h⟩
          · rintro (h | h)
            · exact h.2
            · omega
        · exact ⟨S.length, a, (look _ _).2 (.inr ⟨rfl, rfl⟩), (hP _ _ _ _ (by simp)).1 h⟩
    have exSeen := fun (T : Prop) x => ex T (fun _ t A => t.sid = x ∨ (A ∧ t.tid = x)) (by intro j t A B h; simp only [h])
    have exGet := fun (T : Prop) u v => ex T (fun _ t A => A ∧ ((t.sid = u ∧ t.tid = v) ∨ (t.sid = v ∧ t.tid = u)))
      (by intro j t A B h; simp only [h])
    rw [List.foldlM_append, e]
    show ∃ s' K', (greedyStep s a >>= fun s' => [].foldlM greedyStep s') = .ok s' ∧ _
    have hstep : ∀ s', greedyStep s a = .ok s' → ([a].foldlM greedyStep s) = .ok s' := by
      intro s' h; simp [h]
    by_cases h1 : a.sid ∈ s.1
    · refine ⟨s, _, ?_, hsym, core False (by simp [h1]), ?_, ?_⟩
      · have : greedyStep s a = .ok s := by simp [greedyStep, h1]
        rw [this]; rfl
      · intro x
        refine Iff.trans ?_ (exSeen False x).symm
        rw [← hseen]
        constructor
        · exact .inl
        · rintro (h | rfl | h)
          · exact h
          · exact h1
          · exact absurd h.1 _root_.id
      · intro u v
        refine Iff.trans ?_ (exGet False u v).symm
        rw [← hget]; simp
    · by_cases h2 : a.tid ∈ a.sid :: s.1
      · refine ⟨(a.sid :: s.1, s.2), _, ?_, hsym, core False ?_, ?_, ?_⟩
        · have : greedyStep s a = .ok (a.sid :: s.1, s.2) := by
            simp only [greedyStep, List.contains_eq_mem, h1, h2]; simp
          rw [this]; rfl
        · refine ⟨False.elim, fun h => ?_⟩
          rcases List.mem_cons.1 h2 with h2 | h2
          · exact h.1 h2.symm
          · exact h.2.2 h2
        · intro x
          refine Iff.trans ?_ (exSeen False x).symm
          rw [← hseen, List.mem_cons, eq_comm, or_comm]
          simp
        · intro u v
          refine Iff.trans ?_ (exGet False u v).symm
          rw [← hget]; simp
      · have hne : a.sid ≠ a.tid := fun h => h2 (by simp [h])
        have ht : a.tid ∉ s.1 := fun h => h2 (by simp [h])
        have none : ∀ x, x ∉ s.1 → s.2.get x = none := by
          intro x hx
          cases hc : s.2.get x with
          | none => rfl
          | some y =>
            obtain ⟨i, t, h3, h4, h5⟩ := (hget x y).1 hc
            refine absurd ((hseen x).2 ⟨i, t, h3, ?_⟩) hx
            rcases h5 with h5 | h5
            · exact .inl h5.1
            · exact .inr ⟨h4, h5.2⟩
        refine ⟨(a.tid :: a.sid :: s.1, s.2.pair a.sid a.tid), _, ?_, hsym.pair hne, core True ?_, ?_, ?_⟩
        · have : greedyStep s a = .ok (a.tid :: a.sid :: s.1, s.2.pair a.sid a.tid) := by
            simp only [greedyStep, List.contains_eq_mem, h1, h2]; simp
          rw [this]; rfl
        · exact ⟨fun _ => ⟨hne, h1, ht⟩, fun _ => trivial⟩
        · intro x
          refine Iff.trans ?_ (exSeen True x).symm
          rw [← hseen]
          simp only [List.mem_cons, true_and]
          constructor
          · rintro (h | h | h)
            · exact .inr (.inr h.symm)
            · exact .inr (.inl h.symm)
            · exact .inl h
          · rintro (h | h | h)
            · exact .inr (.inr h)
            · exact .inr (.inl h.symm)
            · exact .inl h.symm
        · intro u v
          refine Iff.trans ?_ (exGet True u v).symm
          rw [← hget, get_pair_fresh hsym hne (none _ h1) (none _ ht)]
          have n1 := none _ h1
          have n2 := none _ ht
          simp only [true_and]
          split
          · rename_i c; subst c
            rw [n1]; simp [hne, eq_comm]
          · split
            · rename_i c1 c2; subst c2
              rw [n2]; simp [hne, eq_comm]
            · rename_i c1 c2
              constructor
              · exact .inl
              · rintro (h | ⟨h, -⟩ | ⟨-, h⟩)
                · exact h
                · exact absurd h.symm c1
                · exact absurd h.symm c2

theorem OwnRun.unique {c : DefaultGraph} {st st' : List Step} (h : OwnRun c st) (h' : OwnRun c st') : st = st' := by
  obtain ⟨r, e, d, e1, h1⟩ := h
  obtain ⟨r', e', d', e2, h2⟩ := h'
  rw [e] at e'; injection e' with e'; subst e'
  rw [e1] at e2; injection e2 with e2; subst e2
  exact endsAfter_unique h1 h2

/-- `greedy` is first come, first served over the traversals of the components, one after the other. -/
theorem greedy_flatten {g : GraphI} (hg : g.Directed) {p : Pairing} (hp : GreedyReturns g p) {comps : List DefaultGraph}
    (hc : Components.Run g comps) {runs : List (List Step)} (hr : List.Forall₂ OwnRun comps runs) :
    ∃ s, runs.flatten.foldlM greedyStep ([], Pairing.new) = .ok s ∧ s.2 = p := by
  obtain ⟨rc, N, ⟨h1, hrun, h2⟩ | ⟨root, c, -, -, hno, -⟩⟩ := greedy_or hg
  · obtain ⟨M, hp⟩ := hp
    have e : comps = rc.map Prod.snd := by
      obtain ⟨A, hA⟩ := hc
      obtain ⟨B, hB⟩ := hrun
      exact endsAfter_unique (hA (max A B) (by omega)) (hB (max A B) (by omega))
    obtain ⟨e1, e2⟩ := h2 (max M N) (by omega)
    rw [hp (max M N) (by omega)] at e1
    have key : ∀ (rc : List (Nat × DefaultGraph)) (runs : List (List Step)) (s : List Nat × Pairing),
        List.Forall₂ OwnRun (rc.map Prod.snd) runs → (∀ e ∈ rc, Components.IsComp g e.1 e.2) →
        (∀ e ∈ rc, ∃ steps, DepthFirst.Run e.2.toI e.1 steps ∧
          ∀ s, greedyComponent (max M N) s e.2 = steps.foldlM greedyStep s) →
        (rc.map Prod.snd).foldlM (greedyComponent (max M N)) s = runs.flatten.foldlM greedyStep s := by
      intro rc
      induction rc with
      | nil => intro runs s h _ _; simp at h; subst h; rfl
      | cons a l ih =>
        intro runs s h hcm hst
        rw [List.map_cons] at h
        cases h with
        | @cons _ st _ rs hx hxs =>
        obtain ⟨st', h3, h4⟩ := hst a (by simp)
        have : st = st' := hx.unique ⟨a.1, (hcm a (by simp)).head, h3⟩
        subst this
        rw [List.map_cons, List.foldlM_cons, h4, List.flatten_cons, List.foldlM_append]
        congr 1
        funext s'
        exact ih rs s' hxs (fun e he => hcm e (by simp [he])) (fun e he => hst e (by simp [he]))
    subst e
    rw [key rc runs _ hr h1.comp e2] at e1
    obtain ⟨s, K, e3, -⟩ := greedyFold_exact runs.flatten
    rw [e3] at e1
    simp only [Out.ok_bind, Out.ok.injEq] at e1
    exact ⟨s, e3, e1.symm⟩
  · exact absurd ⟨_, hc⟩ hno

namespace DepthFirst

/-- A cut step to a node that has not been the source of a step repeats the step that discovered it. -/
theorem cut_to_source {g : GraphI} (hg : g.Lawful) {root : Nat} {pre post : List Step} {s : Step}
    (h : DepthFirst.Run g root (pre ++ s :: post)) (hcut : s.cut = true) (hne : s.sid ≠ s.tid) : ∃ t ∈ pre, t.sid = s.tid := by
  obtain ⟨d, i, q⟩ := h.inv2 hg
  have ht := i.inv.truth pre s post rfl
  have hd := ht.2.1 hcut
  cases pre with
  | nil =>
    have := ht.1
    simp [discovered] at this hd
    exact absurd (this.trans hd.symm) hne
  | cons a pre =>
    rcases mem_discovered.1 hd with h1 | ⟨t, htm, hc, h1⟩
    · exact ⟨a, by simp, by rw [h1]; exact (i.first a (pre ++ s :: post) rfl).1⟩
    · obtain ⟨l, l', e⟩ := List.append_of_mem htm
      have hts : t.sid ≠ s.sid := by
        intro hc'
        have := two_le_joinCount_split (u := s.sid) (v := s.tid) (t := s) (l' := post) htm (.inl ⟨hc', h1⟩) (.inl ⟨rfl, rfl⟩)
        have := i.inv.join_once hne
        omega
      have ha : g.Adj t.tid s.sid := by rw [h1]; exact hg.adj_symm _ _ (i.inv.step_adj s (by simp))
      have hm : s.sid ∈ (g.nbr t.tid).filter (fun x => x != t.sid) := by
        rw [List.mem_filter]
        exact ⟨GraphI.mem_nbr.2 ha, by simp [Ne.symm hts]⟩
      obtain ⟨b, hb⟩ : ∃ b, ((g.nbr t.tid).filter (fun x => x != t.sid)).head? = some b := by
        cases hf : (g.nbr t.tid).filter (fun x => x != t.sid) with
        | nil => rw [hf] at hm; simp at hm
        | cons b _ => exact ⟨b, rfl⟩
      cases l' with
      | nil =>
        have := (i.deeper l t s post (by rw [e]; simp) hc b hb).1
        exact absurd (this.trans h1) hne
      | cons t' l' =>
        have := (i.deeper l t t' (l' ++ s :: post) (by rw [e]; simp) hc b hb).1
        exact ⟨t', by rw [e]; simp, this.trans h1⟩

end DepthFirst

/-- The ends of the steps of a component's traversal are its nodes. -/
theorem OwnRun.mem {c : DefaultGraph} (hc : c.toI.Lawful) {st : List Step} (h : OwnRun c st) {s : Step} (hs : s ∈ st) :
    s.sid ∈ c.nodes ∧ s.tid ∈ c.nodes := by
  obtain ⟨r, e, h⟩ := h
  obtain ⟨-, d, d', -, -, -, i, q⟩ := h.inv hc
  exact ⟨hc.adj_src (i.step_adj s hs), hc.adj_mem _ _ (i.step_adj s hs)⟩

/-- First come, first served, within the traversal of one component, if no other component has its nodes. -/
theorem FirstCome.part {P st Q : List Step} {K : Nat → Prop} (hK : FirstCome (P ++ st ++ Q) K) {c : DefaultGraph}
    (hc : c.toI.Lawful) (hst : OwnRun c st) (hP : ∀ s ∈ P, s.sid ∉ c.nodes ∧ s.tid ∉ c.nodes) :
    FirstCome st (fun i => K (P.length + i)) ∧ ∀ i s, st[i]? = some s → K (P.length + i) → s.cut = false := by
  have idx : ∀ {i s}, st[i]? = some s → (P ++ st ++ Q)[P.length + i]? = some s := by
    intro i s h
    rw [List.append_assoc, List.getElem?_append_right (by omega), List.getElem?_append_left]
    · simpa using h
    · have := (List.getElem?_eq_some_iff.1 h).1; omega
  have hF : FirstCome st (fun i => K (P.length + i)) := by
    intro i s hs
    beta_reduce
    rw [hK _ _ (idx hs)]
    refine and_congr_right fun _ => ?_
    constructor
    · intro h j t hj ht
      exact h (P.length + j) t (by omega) (idx ht)
    · intro h j t hj ht
      by_cases hjP : j < P.length
      · have htP : t ∈ P := by
          rw [List.append_assoc, List.getElem?_append_left hjP] at ht
          exact List.mem_of_getElem? ht
        have h1 := hP t htP
        have h2 := hst.mem hc (List.mem_of_getElem? hs)
        exact ⟨fun e => h1.1 (e ▸ h2.1), fun e => h1.1 (e ▸ h2.2), fun _ =>
          ⟨fun e => h1.2 (e ▸ h2.1), fun e => h1.2 (e ▸ h2.2)⟩⟩
      · obtain ⟨k, rfl⟩ : ∃ k, j = P.length + k := ⟨j - P.length, by omega⟩
        have hi := (List.getElem?_eq_some_iff.1 hs).1
        refine h k t (by omega) ?_
        rw [List.append_assoc, List.getElem?_append_right (by omega), List.getElem?_append_left (by omega)] at ht
        simpa using ht
  refine ⟨hF, fun i s hs hk => ?_⟩
  by_contra hcut
  obtain ⟨h1, h2⟩ := (hF i s hs).1 hk
  obtain ⟨r, -, hrun⟩ := hst
  have e : st = st.take i ++ s :: st.drop (i + 1) := by
    obtain ⟨hi, rfl⟩ := List.getElem?_eq_some_iff.1 hs
    simp
  rw [e] at hrun
  obtain ⟨t, ht, h3⟩ := DepthFirst.cut_to_source hc hrun (by simpa using hcut) h1
  obtain ⟨j, hj⟩ := List.mem_iff_getElem?.1 ht
  have hji : j < i := by have := (List.getElem?_eq_some_iff.1 hj).1; simp at this; omega
  rw [List.getElem?_take, if_pos hji] at hj
  exact (h2 j t hji hj).2.1 h3

/-- Two different nodes are joined at one position only. -/
theorem DepthFirst.join_position {g : GraphI} (hg : g.Lawful) {root : Nat} {st : List Step} (h : DepthFirst.Run g root st) {u v : Nat}
    (hne : u ≠ v) {i j : Nat} {s t : Step} (hs : st[i]? = some s) (ht : st[j]? = some t)
    (h1 : (s.sid = u ∧ s.tid = v) ∨ (s.sid = v ∧ s.tid = u)) (h2 : (t.sid = u ∧ t.tid = v) ∨ (t.sid = v ∧ t.tid = u)) : i = j := by
  obtain ⟨-, d, d', -, -, -, inv, q⟩ := h.inv hg
  have key : ∀ {i j : Nat} {s t : Step}, st[i]? = some s → st[j]? = some t →
      ((s.sid = u ∧ s.tid = v) ∨ (s.sid = v ∧ s.tid = u)) → ((t.sid = u ∧ t.tid = v) ∨ (t.sid = v ∧ t.tid = u)) → ¬ i < j := by
    intro i j s t hs ht h1 h2 hij
    have e : st = st.take j ++ t :: st.drop (j + 1) := by
      obtain ⟨hi, rfl⟩ := List.getElem?_eq_some_iff.1 ht
      simp
    have hm : s ∈ st.take j := List.mem_of_getElem? (i := i) (by rw [List.getElem?_take, if_pos hij]; exact hs)
    have := two_le_joinCount_split (u := u) (v := v) (t := t) (l' := st.drop (j + 1)) hm h1 h2
    rw [← e] at this
    have := inv.join_once hne
    omega
  have a := key hs ht h1 h2
  have b := key ht hs h2 h1
  omega

/-- What `greedy` pairs inside one component, if no other component has its nodes. -/
theorem greedy_part {P st Q : List Step} {K : Nat → Prop} (hK : FirstCome (P ++ st ++ Q) K) {c : DefaultGraph}
    (hc : c.toI.Lawful) (hst : OwnRun c st) (hP : ∀ s ∈ P, s.sid ∉ c.nodes ∧ s.tid ∉ c.nodes)
    (hQ : ∀ s ∈ Q, s.sid ∉ c.nodes ∧ s.tid ∉ c.nodes) {m : Nat → Nat → Prop}
    (hm : ∀ u v, m u v ↔ ∃ i t, (P ++ st ++ Q)[i]? = some t ∧ K i ∧ ((t.sid = u ∧ t.tid = v) ∨ (t.sid = v ∧ t.tid = u))) :
    (∀ u ∈ c.nodes, ∀ v, m u v → ⟨u, v, false⟩ ∈ st ∨ ⟨v, u, false⟩ ∈ st) ∧
    ∀ u v, ⟨u, v, false⟩ ∈ st →
      (m u v ↔ st.find? (fun s => s.sid == u) = some ⟨u, v, false⟩ ∧ ∀ w, ⟨w, u, false⟩ ∈ st → ¬ m w u) := by
  obtain ⟨hF, hcut⟩ := hK.part hc hst hP
  have loc : ∀ u v, u ∈ c.nodes → (m u v ↔ ∃ i t, st[i]? = some t ∧ K (P.length + i) ∧
      ((t.sid = u ∧ t.tid = v) ∨ (t.sid = v ∧ t.tid = u))) := by
    intro u v hu
    rw [hm]
    constructor
    · rintro ⟨i, t, ht, hk, h⟩
      have hmem : t.sid ∈ c.nodes ∨ t.tid ∈ c.nodes := by
        rcases h with ⟨h, -⟩ | ⟨-, h⟩
        · exact .inl (h ▸ hu)
        · exact .inr (h ▸ hu)
      by_cases h1 : i < P.length
      · rw [List.append_assoc, List.getElem?_append_left h1] at ht
        have := hP t (List.mem_of_getElem? ht)
        tauto
      · obtain ⟨k, rfl⟩ : ∃ k, i = P.length + k := ⟨i - P.length, by omega⟩
        rw [List.append_assoc, List.getElem?_append_right (by omega)] at ht
        simp only [Nat.add_sub_cancel_left] at ht
        by_cases h2 : k < st.length
        · rw [List.getElem?_append_left h2] at ht
          exact ⟨k, t, ht, hk, h⟩
        · rw [List.getElem?_append_right (by omega)] at ht
          have := hQ t (List.mem_of_getElem? ht)
          tauto
    · rintro ⟨i, t, ht, hk, h⟩
      refine ⟨P.length + i, t, ?_, hk, h⟩
      rw [List.append_assoc, List.getElem?_append_right (by omega), List.getElem?_append_left]
      · simpa using ht
      · have := (List.getElem?_eq_some_iff.1 ht).1; omega
  have hmem := fun {s : Step} (hs : s ∈ st) => hst.mem hc hs
  obtain ⟨r, -, hrun⟩ := hst
  obtain ⟨-, d, d', -, -, -, inv, q⟩ := hrun.inv hc
  have split : ∀ {i s}, st[i]? = some s → st = st.take i ++ s :: st.drop (i + 1) := by
    intro i s hs
    obtain ⟨hi, rfl⟩ := List.getElem?_eq_some_iff.1 hs
    simp
  have htr : ∀ i, Truthful r (st.take i) := by
    intro i p x q' e
    exact inv.truth p x (q' ++ st.drop i) (by conv_lhs => rw [← List.take_append_drop i st, e]
                                              simp)
  have tree : ∀ u v i, st[i]? = some ⟨u, v, false⟩ → (m u v ↔ K (P.length + i)) := by
    intro u v i hi
    have hmm := hmem (List.mem_of_getElem? hi)
    simp only at hmm
    have hne : u ≠ v := inv.truth.ne (List.mem_of_getElem? hi) rfl
    rw [loc u v hmm.1]
    constructor
    · rintro ⟨j, t, ht, hk, h⟩
      rw [DepthFirst.join_position hc hrun hne hi ht (.inl ⟨rfl, rfl⟩) h]
      exact hk
    · exact fun h => ⟨i, _, hi, h, .inl ⟨rfl, rfl⟩⟩
  refine ⟨?_, ?_⟩
  · intro u hu v h
    obtain ⟨i, t, ht, hk, h⟩ := (loc u v hu).1 h
    have h1 := hcut i t ht hk
    have h2 := List.mem_of_getElem? ht
    obtain ⟨a, b, f⟩ := t
    simp only at h h1
    rcases h with ⟨rfl, rfl⟩ | ⟨rfl, rfl⟩
    · subst h1; exact .inl h2
    · subst h1; exact .inr h2
  · intro u v huv
    obtain ⟨k, hk⟩ := List.mem_iff_getElem?.1 huv
    have hne : u ≠ v := inv.truth.ne huv rfl
    have hkl := (List.getElem?_eq_some_iff.1 hk).1
    rw [tree u v k hk]
    have hT := inv.truth _ _ _ (split hk)
    have hv : v ∉ discovered r (st.take k) := fun h => by simpa using hT.2.2 h
    have hu := hT.1
    simp only at hu
    have early : ∀ {j t}, j < k → st[j]? = some t → t ∈ st.take k := fun hj ht =>
      List.mem_of_getElem? (by rw [List.getElem?_take, if_pos hj]; exact ht)
    refine Iff.trans (hF k _ hk) ?_
    constructor
    · rintro ⟨-, h⟩
      refine ⟨?_, ?_⟩
      · rw [List.find?_eq_some_iff_append]
        refine ⟨by simp, _, _, split hk, ?_⟩
        intro a ha
        obtain ⟨j, hj⟩ := List.mem_iff_getElem?.1 ha
        have hji : j < k := by have := (List.getElem?_eq_some_iff.1 hj).1; simp at this; omega
        rw [List.getElem?_take, if_pos hji] at hj
        have := (h j a hji hj).1
        simpa using this
      · intro w hw hmw
        obtain ⟨j, hj⟩ := List.mem_iff_getElem?.1 hw
        have hjk : j < k := by
          by_contra hc'
          have h1 := inv.truth _ _ _ (split hj)
          have : u ∈ discovered r (st.take j) := by
            have e : st.take j = st.take k ++ (st.take j).drop k := by
              conv_lhs => rw [← List.take_append_drop k (st.take j)]
              rw [List.take_take, Nat.min_eq_left (by omega)]
            rw [e]; exact discovered_mono hu
          simpa using h1.2.2 this
        exact ((h j _ hjk hj).2.2 ((tree w u j hj).1 hmw)).1 rfl
    · rintro ⟨h1, h2⟩
      refine ⟨hne, fun j t hj ht => ?_⟩
      have htm := early hj ht
      refine ⟨?_, ?_, ?_⟩
      · rw [List.find?_eq_some_iff_append] at h1
        obtain ⟨-, as, bs, e, h1⟩ := h1
        have hl : st[as.length]? = some ⟨u, v, false⟩ := by rw [e]; simp
        have := DepthFirst.join_position hc hrun hne hk hl (.inl ⟨rfl, rfl⟩) (.inl ⟨rfl, rfl⟩)
        subst this
        have : t ∈ as := by
          rw [e, List.getElem?_append_left hj] at ht
          exact List.mem_of_getElem? ht
        simpa using h1 t this
      · intro e; exact hv (by have := (htr k).sid_mem htm; rw [e] at this; exact this)
      · intro hKj
        refine ⟨?_, ?_⟩
        · intro e
          have h3 := hcut j t ht hKj
          obtain ⟨a, b, f⟩ := t
          simp only at e h3
          subst e h3
          exact h2 a (List.mem_of_getElem? ht) ((tree a b j ht).2 hKj)
        · intro e; exact hv (by have := (htr k).tid_mem htm; rw [e] at this; exact this)

end Gamma
