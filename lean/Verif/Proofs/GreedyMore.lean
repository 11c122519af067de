import Verif.Proofs.Greedy
import Verif.Proofs.Berge
import Verif.Props.Traversal
/-
More about `greedy`: pairs are never undone, the first node of a component is paired with its first neighbor, and
maximal matchings are half as large as maximum ones.
-/
namespace Gamma
open Pairing

/-- A step never changes an existing pair. -/
theorem greedyStep_get {g : GraphI} {s s' : List Nat × Pairing} (h : GreedyInv g s) {st : Step}
    (e : greedyStep s st = .ok s') {x y : Nat} (hx : s.2.get x = some y) : s'.2.get x = some y := by
  unfold greedyStep at e
  by_cases h1 : st.sid ∈ s.1
  · simp [h1] at e; subst e; exact hx
  · by_cases h2 : st.tid ∈ st.sid :: s.1
    · simp only [List.contains_eq_mem, h1, h2] at e
      simp at e; subst e; exact hx
    · have hne : st.sid ≠ st.tid := by intro e; exact h2 (by simp [e])
      have ht : st.tid ∉ s.1 := fun hc => h2 (by simp [hc])
      simp only [List.contains_eq_mem, h1, h2] at e
      simp at e; subst e
      have e1 : s.2.get st.sid = none := by
        cases e : s.2.get st.sid with
        | none => rfl
        | some y => exact absurd (h.seen _ _ e) h1
      have e2 : s.2.get st.tid = none := by
        cases e : s.2.get st.tid with
        | none => rfl
        | some y => exact absurd (h.seen _ _ e) ht
      show (s.2.pair st.sid st.tid).get x = some y
      rw [get_pair_fresh h.sym hne e1 e2]
      split
      · next c => rw [c, e1] at hx; simp at hx
      · split
        · next c => rw [c, e2] at hx; simp at hx
        · exact hx

/-- The steps of a traversal: pairs are kept, and only the ends of steps are newly seen. -/
theorem greedyFold_get {g : GraphI} (hg : g.Lawful) (steps : List Step) {s : List Nat × Pairing}
    (h : GreedyInv g s) (ha : ∀ st ∈ steps, g.Adj st.sid st.tid) :
    ∃ s', steps.foldlM greedyStep s = .ok s' ∧ GreedyInv g s' ∧
      (∀ x y, s.2.get x = some y → s'.2.get x = some y) ∧
      (∀ x ∈ s'.1, x ∈ s.1 ∨ ∃ st ∈ steps, x = st.sid ∨ x = st.tid) := by
  induction steps generalizing s with
  | nil => exact ⟨s, rfl, h, fun x y hx => hx, fun x hx => .inl hx⟩
  | cons a l ih =>
    obtain ⟨s1, e1, i1, m1, n1, -⟩ := greedyStep_ok hg.adj_symm h (ha a (by simp))
    obtain ⟨s2, e2, i2, m2, n2⟩ := ih i1 (fun st hst => ha st (by simp [hst]))
    refine ⟨s2, by rw [List.foldlM_cons, e1]; exact e2, i2, fun x y hx => m2 x y (greedyStep_get h e1 hx), ?_⟩
    intro x hx
    rcases n2 x hx with h3 | ⟨st, h3, h4⟩
    · rcases n1 x h3 with h5 | h5
      · exact .inl h5
      · exact .inr ⟨a, by simp, h5⟩
    · exact .inr ⟨st, by simp [h3], h4⟩

/-- The same over components. -/
theorem foldComponents_get {g : GraphI} (hg : g.Lawful) {fuel : Nat} (rc : List (Nat × DefaultGraph))
    (hc : ∀ e ∈ rc, Components.IsComp g e.1 e.2)
    (h : ∀ e ∈ rc, ∃ steps, DepthFirst.Run e.2.toI e.1 steps ∧
        ∀ s, greedyComponent fuel s e.2 = steps.foldlM greedyStep s) {s : List Nat × Pairing}
    (hs : GreedyInv g s) :
    ∃ s', (rc.map Prod.snd).foldlM (greedyComponent fuel) s = .ok s' ∧ GreedyInv g s' ∧
      (∀ x y, s.2.get x = some y → s'.2.get x = some y) ∧
      (∀ x ∈ s'.1, x ∈ s.1 ∨ ∃ e ∈ rc, x ∈ e.2.nodes) := by
  induction rc generalizing s with
  | nil => exact ⟨s, rfl, hs, fun x y hx => hx, fun x hx => .inl hx⟩
  | cons a l ih =>
    obtain ⟨steps, h1, h2⟩ := h a (by simp)
    have ha := hc a (by simp)
    obtain ⟨-, d, d', -, -, -, i, q⟩ := h1.inv ha.lawful
    obtain ⟨s1, e1, i1, m1, n1⟩ := greedyFold_get hg steps hs (fun st hst => ha.adj hg (i.step_adj st hst))
    obtain ⟨s2, e2, i2, m2, n2⟩ := ih (fun e he => hc e (by simp [he])) (fun e he => h e (by simp [he])) i1
    refine ⟨s2, ?_, i2, fun x y hx => m2 x y (m1 x y hx), ?_⟩
    · rw [List.map_cons, List.foldlM_cons, h2, e1]
      exact e2
    · intro x hx
      rcases n2 x hx with h3 | ⟨e, he, h3⟩
      · rcases n1 x h3 with h5 | ⟨st, hst, h5⟩
        · exact .inl h5
        · refine .inr ⟨a, by simp, ?_⟩
          rcases h5 with rfl | rfl
          · exact ha.lawful.adj_src (i.step_adj st hst)
          · exact ha.lawful.adj_mem _ _ (i.step_adj st hst)
      · exact .inr ⟨e, by simp [he], h3⟩

/-- The first neighbor of the root is the same in the component. -/
theorem Components.IsComp.first_neighbor {g : GraphI} (hg : g.Lawful) {r : Nat} {c : DefaultGraph}
    (h : Components.IsComp g r c) {a : Nat} (ha : (g.nbr r).head? = some a) : (c.toI.nbr r).head? = some a := by
  obtain ⟨st, hr, e1, e2⟩ := h.run
  have hhead := (C47_dfs_order g hg r st hr).1
  rw [ha] at hhead
  cases st with
  | nil => simp at hhead
  | cons s st =>
    simp only [List.head?_cons, Option.map_some, Option.some.injEq, Prod.mk.injEq] at hhead
    obtain ⟨rfl, rfl⟩ := hhead
    have hn := h.ordered s.sid h.root_mem
    unfold GraphI.nbr
    rw [show c.toI.neighbors s.sid = c.neighbors s.sid from rfl, hn, e2]
    simp [incident, Step.pair]

/-- The first node of a component of the graph is the root of the first component yielded that meets it, and the
components yielded before do not meet it. -/
theorem Components.Result.first_root {g : GraphI} (hg : g.Lawful) {rc : List (Nat × DefaultGraph)}
    (h : Components.Result g rc) {r : Nat} (hr : r ∈ g.nodes)
    (hfirst : ∀ x, [x, r].Sublist g.nodes → ¬ g.simple.Reachable x r) :
    ∃ l e l', rc = l ++ e :: l' ∧ e.1 = r ∧ ∀ e' ∈ l, ∀ x ∈ e'.2.nodes, ¬ g.simple.Reachable r x := by
  classical
  obtain ⟨e0, he0, hx0⟩ := h.cover r hr
  -- the first entry that meets the component of `r`
  have hex : ∃ e ∈ rc, ∃ x ∈ e.2.nodes, g.simple.Reachable r x := ⟨e0, he0, r, hx0, .refl _⟩
  have split : ∀ rc : List (Nat × DefaultGraph), (∃ e ∈ rc, ∃ x ∈ e.2.nodes, g.simple.Reachable r x) →
      ∃ l e l', rc = l ++ e :: l' ∧ (∃ x ∈ e.2.nodes, g.simple.Reachable r x) ∧
        ∀ e' ∈ l, ∀ x ∈ e'.2.nodes, ¬ g.simple.Reachable r x := by
    intro rc
    induction rc with
    | nil => rintro ⟨e, he, -⟩; simp at he
    | cons a t ih =>
      rintro ⟨e, he, hx⟩
      by_cases ha : ∃ x ∈ a.2.nodes, g.simple.Reachable r x
      · exact ⟨[], a, t, rfl, ha, by simp⟩
      · rcases List.mem_cons.1 he with rfl | he
        · exact absurd hx ha
        · obtain ⟨l, e', l', rfl, h1, h2⟩ := ih ⟨e, he, hx⟩
          refine ⟨a :: l, e', l', rfl, h1, fun e'' he'' => ?_⟩
          rcases List.mem_cons.1 he'' with rfl | he''
          · push Not at ha; exact ha
          · exact h2 e'' he''
  obtain ⟨l, e, l', hrc, ⟨x, hx, hrx⟩, hl⟩ := split rc hex
  have hem : e ∈ rc := by rw [hrc]; simp
  have hre : g.simple.Reachable r e.1 := hrx.trans ((h.comp e hem).reachable hg hx).symm
  refine ⟨l, e, l', hrc, ?_, hl⟩
  by_contra hne
  have hmem : e.1 ∈ g.nodes := h.roots.subset (List.mem_map.2 ⟨e, hem, rfl⟩)
  -- one of the two comes first
  have hord : [r, e.1].Sublist g.nodes ∨ [e.1, r].Sublist g.nodes := by
    obtain ⟨a, b, hab⟩ := List.append_of_mem hr
    rw [hab] at hmem ⊢
    rcases List.mem_append.1 hmem with h1 | h1
    · refine .inr ?_
      have := (List.singleton_sublist.2 h1).append (List.singleton_sublist.2 (show r ∈ r :: b by simp))
      simpa using this
    · rcases List.mem_cons.1 h1 with h1 | h1
      · exact absurd h1 hne
      · refine .inl ?_
        have := (List.nil_sublist a).append ((List.singleton_sublist.2 h1).cons_cons r)
        simpa using this
  rcases hord with h1 | h1
  · obtain ⟨e', he', hx'⟩ := h.earlier l e l' hrc r h1
    exact hl e' he' r hx' (.refl _)
  · exact hfirst _ h1 hre.symm

/-- `greedy` pairs the first node of each component of the graph with its first neighbor. -/
theorem greedy_first {g : GraphI} (hg : g.Lawful) (hl : g.Loopless) {p : Pairing} (hp : GreedyReturns g p) {r a : Nat}
    (hr : r ∈ g.nodes) (hfirst : ∀ x, [x, r].Sublist g.nodes → ¬ g.simple.Reachable x r)
    (ha : (g.nbr r).head? = some a) : p.get r = some a := by
  obtain ⟨rc, N, hres, h1⟩ := greedy_eq hg hl.noDoubleLoop
  obtain ⟨l, e, l', hrc, he1, hbefore⟩ := hres.first_root hg hr hfirst
  subst hrc
  obtain ⟨M, hM⟩ := hp
  have hN := h1 (max N M) (le_max_left _ _)
  obtain ⟨s1, e1, i1, -, n1⟩ := foldComponents_get hg l (fun e he => hres.comp e (by simp [he]))
    (fun e he => hN.2 e (by simp [he])) (greedyInv_new g)
  have hcomp := hres.comp e (by simp)
  obtain ⟨steps, hrun, hst⟩ := hN.2 e (by simp)
  have hadj : g.Adj r a := GraphI.mem_nbr.1 (List.mem_of_head? ha)
  have hhead := (C47_dfs_order e.2.toI hcomp.lawful e.1 steps hrun).1
  have hcomp' : Components.IsComp g r e.2 := he1 ▸ hcomp
  rw [he1, hcomp'.first_neighbor hg ha] at hhead
  obtain ⟨-, d, d', -, -, -, i, q⟩ := hrun.inv hcomp.lawful
  have hsadj : ∀ st ∈ steps, g.Adj st.sid st.tid := fun st hst => hcomp.adj hg (i.step_adj st hst)
  cases steps with
  | nil => simp at hhead
  | cons st steps =>
    simp only [List.head?_cons, Option.map_some, Option.some.injEq, Prod.mk.injEq] at hhead
    have hne : r ≠ a := by rintro rfl; exact hl r hadj
    have unseen : ∀ x, g.simple.Reachable r x → x ∉ s1.1 := by
      intro x hx hc
      rcases n1 x hc with h3 | ⟨e', he', h3⟩
      · simp at h3
      · exact hbefore e' he' x h3 hx
    have u1 := unseen r (.refl _)
    have u2 := unseen a (SimpleGraph.Adj.reachable ((hg.simple_adj).2 ⟨hne, hadj⟩))
    have hstep : greedyStep s1 st = .ok (a :: r :: s1.1, s1.2.pair r a) := by
      unfold greedyStep
      rw [hhead.1, hhead.2]
      simp [u1, u2, hne.symm]
    obtain ⟨s2, e2, i2, -⟩ := greedyStep_ok hg.adj_symm i1 (hsadj st (by simp))
    rw [hstep] at e2
    injection e2 with e2
    have g2 : s2.2.get r = some a := by
      rw [← e2]
      have z1 : s1.2.get r = none := by
        cases e : s1.2.get r with
        | none => rfl
        | some y => exact absurd (i1.seen _ _ e) u1
      have z2 : s1.2.get a = none := by
        cases e : s1.2.get a with
        | none => rfl
        | some y => exact absurd (i1.seen _ _ e) u2
      show (s1.2.pair r a).get r = _
      rw [get_pair_fresh i1.sym hne z1 z2]; simp
    obtain ⟨s3, e3, i3, m3, -⟩ := greedyFold_get hg steps i2 (fun x hx => hsadj x (by simp [hx]))
    obtain ⟨s4, e4, i4, m4, -⟩ := foldComponents_get hg l' (fun e he => hres.comp e (by simp [he]))
      (fun e he => hN.2 e (by simp [he])) i3
    have hfin : greedy g (max N M) = .ok s4.2 := by
      rw [hN.1, List.map_append, foldlM_append_out, e1, List.map_cons]
      show ((e.2 :: l'.map Prod.snd).foldlM (greedyComponent (max N M)) s1 >>= fun s => .ok s.2) = _
      rw [List.foldlM_cons, hst, List.foldlM_cons, hstep, e2]
      show ((steps.foldlM greedyStep s2 >>= fun s => (l'.map Prod.snd).foldlM (greedyComponent (max N M)) s) >>=
        fun s => .ok s.2) = _
      rw [e3]
      show ((l'.map Prod.snd).foldlM (greedyComponent (max N M)) s3 >>= fun s => .ok s.2) = _
      rw [e4]; rfl
    have := hM (max N M) (le_max_right _ _)
    rw [hfin] at this
    injection this with this
    rw [← this]
    exact m4 _ _ (m3 _ _ g2)

/-- A matching that leaves no edge uncovered has at least half as many edges as any other. -/
theorem maximal_half {g : GraphI} (hg : g.Lawful) {p : Pairing} (hp : p.Matches g)
    (hmax : ∀ u v, u ≠ v → g.Adj u v → p.hasNode u = true ∨ p.hasNode v = true) {M : List (Nat × Nat)}
    (hM : IsMatching g M) : M.length ≤ p.order := by
  have h := matching_le_cover hM (p.pairs.map Prod.fst).toFinset (fun u v hne ha => by
    simpa [keys_mem] using hmax u v hne ha)
  rw [List.toFinset_card_of_nodup hp.symmetric.keys_nodup] at h
  simpa [order] using h

end Gamma
