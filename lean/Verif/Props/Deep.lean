import Verif.Proofs.DfsDeep
import Verif.Props.Cliques
/-
Property C98: how deep a depth-first traversal goes, and what it discovers of complete multipartite graphs.
-/
namespace Gamma

section
variable (g : GraphI) (hg : g.Lawful) (root : Nat) (steps : List Step) (h : DepthFirst.Run g root steps)
include hg h

/-- **C98, as deep as it can.**  While the node discovered last has neighbors that are not discovered, the next discovery is made from
it, and is that of the first of them; and when the traversal ends, it has none. -/
theorem C98_goes_on (pre post : List Step) (he : steps = pre ++ post) (last : Nat) (hlast : (discovered root pre).getLast? = some last)
    (w : Nat) (hw : g.Adj last w) (hw' : w ∉ discovered root pre) :
    (∃ s ∈ post, s.cut = false) ∧
    ∀ cuts s rest, post = cuts ++ s :: rest → (∀ t ∈ cuts, t.cut = true) → s.cut = false → s.sid = last ∧
      (∀ t ∈ cuts, t.sid = last) ∧ (g.nbr last).find? (fun x => !(discovered root pre).contains x) = some s.tid := by
  obtain ⟨d, i, q⟩ := h.inv2 hg
  have hm := List.mem_of_getLast? hlast
  have hne : ∀ x, g.Adj last x → x ∉ discovered root pre → g.simple.Adj last x := by
    intro x hx hx'
    exact (hg.simple_adj).2 ⟨by rintro rfl; exact hx' hm, hx⟩
  -- a step that comes while nothing more has been discovered
  have key : ∀ cuts t rest, post = cuts ++ t :: rest → (∀ t ∈ cuts, t.cut = true) → t.sid = last ∧
      ∀ x, g.Adj last x → x ∉ discovered root pre → x = t.tid ∨ [t.tid, x].Sublist (g.nbr last) := by
    intro cuts t rest e hcuts
    have e' : steps = (pre ++ cuts) ++ t :: rest := by rw [he, e]; simp
    have hd : discovered root (pre ++ cuts) = discovered root pre := by
      rw [discovered_append]
      have : cuts.filter (fun s => !s.cut) = [] := by
        rw [List.filter_eq_nil_iff]; intro a ha; simp [hcuts a ha]
      simp [this]
    have htr := i.truth_pre e'
    have hw1 : ∀ x, g.Adj last x → x ∉ discovered root pre → DepthFirst.Waiting g root (pre ++ cuts) last x := fun x hx hx' =>
      DepthFirst.waiting_last htr (by rw [hd]; exact hlast) (hne x hx hx') hg (by rw [hd]; exact hx')
    have hback := i.inv.back (pre ++ cuts) t rest e' last (by rw [hd]; exact hlast)
    have hsid : t.sid = last := by
      rcases i.choice _ t rest e' last w (hw1 w hw hw') with ⟨h1, -⟩ | ⟨h1, -⟩
      · exact h1.symm
      · exact (Ancestor.antisymm htr (by rw [hd]; exact hm) h1 hback).symm
    refine ⟨hsid, fun x hx hx' => ?_⟩
    rcases i.choice _ t rest e' last x (hw1 x hx hx') with ⟨-, h1⟩ | ⟨-, h1⟩
    · exact .inl h1
    · exact .inr (h1 hsid.symm)
  constructor
  · by_contra hc
    push Not at hc
    have hcut : ∀ t ∈ post, t.cut = true := fun t ht => by simpa using hc t ht
    have hd : discovered root steps = discovered root pre := by
      rw [he, discovered_append]
      have : post.filter (fun s => !s.cut) = [] := by
        rw [List.filter_eq_nil_iff]; intro a ha; simp [hcut a ha]
      simp [this]
    have := i.waiting (DepthFirst.waiting_last i.inv.truth (by rw [hd]; exact hlast) (hne w hw hw') hg (by rw [hd]; exact hw'))
    rw [q] at this; simp at this
  · intro cuts s rest e hcuts hc
    obtain ⟨h1, h2⟩ := key cuts s rest e hcuts
    refine ⟨h1, ?_, ?_⟩
    · intro t ht
      obtain ⟨l, l', rfl⟩ := List.append_of_mem ht
      exact (key l t (l' ++ s :: rest) (by rw [e]; simp) (fun x hx => hcuts x (by simp [hx]))).1
    · have hs : s ∈ steps := by rw [he, e]; simp
      have hsm : s.tid ∈ g.nbr last := by
        rw [GraphI.mem_nbr, ← h1]; exact i.inv.step_adj s hs
      have hsn : s.tid ∉ discovered root pre := by
        have h3 := i.inv.truth (pre ++ cuts) s rest (by rw [he, e]; simp)
        intro hx
        have := h3.2.2 (by rw [discovered_append]; exact List.mem_append_left _ hx)
        rw [hc] at this; simp at this
      cases hf : (g.nbr last).find? (fun x => !(discovered root pre).contains x) with
      | none =>
        rw [List.find?_eq_none] at hf
        have := hf _ hsm
        simp [hsn] at this
      | some y =>
        obtain ⟨hy, l, l', e1, hl⟩ := List.find?_eq_some_iff_append.1 hf
        simp only [List.contains_eq_mem, Bool.not_eq_true', decide_eq_false_iff_not] at hy
        rcases h2 y (GraphI.mem_nbr.1 (by rw [e1]; simp)) hy with rfl | h3
        · rfl
        · by_cases hys : y = s.tid
          · rw [hys]
          · exfalso
            have hnl : s.tid ∉ l := fun hx => by
              have := hl _ hx
              simp [hsn] at this
            have hnd : y ∉ l := fun hx => by
              have := hl _ hx
              simp [hy] at this
            rw [e1] at h3
            have h4 : [s.tid, y].Sublist (y :: l') := by
              clear e1 hl
              induction l with
              | nil => exact h3
              | cons a l ih =>
                rw [List.cons_append] at h3
                cases h3 with
                | cons _ h3 => exact ih h3 (fun hx => hnl (by simp [hx])) (fun hx => hnd (by simp [hx]))
                | cons_cons _ _ => exact absurd (by simp) hnl
            cases h4 with
            | cons _ h4 =>
              have hmem : y ∈ l' := h4.subset (by simp)
              obtain ⟨ln, hln, -⟩ := hw
              have hcount := hg.neighbor_once last y ln hln (by rintro rfl; exact hy hm)
              rw [← GraphI.nbr_of_ok hln] at hcount
              rw [e1, List.count_append, List.count_cons_self] at hcount
              have := List.count_pos_iff.2 hmem
              omega
            | cons_cons _ _ => exact hys rfl

end

/-- **C98, complete multipartite graphs.**  Where of two adjacent nodes every connected node is adjacent to one, the traversal discovers
every connected node, in whatever order neighbors are listed.  (Their nodes may be on cycles and have any number of neighbors: C24 says
nothing about them.) -/
theorem C98_multipartite (g : GraphI) (hg : g.Lawful) (hM : g.Multipartite) (root : Nat) (steps : List Step)
    (h : DepthFirst.Run g root steps) (v : Nat) : v ∈ discovered root steps ↔ g.simple.Reachable root v := by
  obtain ⟨d, i, -⟩ := h.inv2 hg
  exact ⟨i.inv.truth.reachable hg i.inv.step_adj v,
    DepthFirst.multipartite_closed hg h (fun x z y _ hxz hxy => hM x z y hxz hxy) v⟩

/-- **C98, `components`.**  There the graphs that `components` yields have exactly the nodes of the connected components, each once. -/
theorem C98_components (g : GraphI) (hg : g.Lawful) (hM : g.Multipartite) (comps : List DefaultGraph) (h : Components.Run g comps) :
    (∀ c ∈ comps, ∀ u ∈ c.nodes, ∀ v, v ∈ c.nodes ↔ g.simple.Reachable u v) ∧ (∀ v ∈ g.nodes, ∃ c ∈ comps, v ∈ c.nodes) ∧
    comps.Pairwise (fun c c' => ∀ x ∈ c.nodes, x ∉ c'.nodes) := by
  obtain ⟨rc, hr, rfl⟩ := Components.run_iff hg.directed h
  have hiff : ∀ e ∈ rc, ∀ v, v ∈ e.2.nodes ↔ g.simple.Reachable e.1 v := by
    intro e he v
    obtain ⟨st, h1, h2, -⟩ := (hr.comp e he).run
    rw [h2]; exact C98_multipartite g hg hM e.1 st h1 v
  refine ⟨?_, ?_, ?_⟩
  · intro c hc u hu v
    obtain ⟨e, he, rfl⟩ := List.mem_map.1 hc
    have hu := (hiff e he u).1 hu
    rw [hiff e he]
    exact ⟨fun hv => hu.symm.trans hv, fun hv => hu.trans hv⟩
  · intro v hv
    obtain ⟨e, he, h⟩ := hr.cover v hv
    exact ⟨e.2, List.mem_map.2 ⟨e, he, rfl⟩, h⟩
  · rw [List.pairwise_map]
    refine List.Pairwise.imp_of_mem ?_ hr.fresh
    intro a b ha hb hne x hxa hxb
    apply hne
    rw [hiff a ha] at hxa ⊢
    rw [hiff b hb] at hxb
    exact hxa.trans hxb.symm

theorem GraphI.Lawful.reachable_mem {g : GraphI} (hg : g.Lawful) {x y : Nat} (hx : x ∈ g.nodes) (h : g.simple.Reachable x y) :
    y ∈ g.nodes := by
  obtain ⟨w⟩ := h
  induction w with
  | nil => exact hx
  | cons ha _ ih => exact ih (hg.adj_mem _ _ ((hg.simple_adj).1 ha).2)

theorem GraphI.Cliques.reach {g : GraphI} (hg : g.Lawful) (hC : g.Cliques) {x y : Nat} (h : g.simple.Reachable x y) :
    x = y ∨ g.simple.Adj x y := by
  obtain ⟨w⟩ := h
  induction w with
  | nil => exact .inl rfl
  | @cons x u y ha _ ih =>
    by_cases hxy : x = y
    · exact .inl hxy
    · right
      rcases ih with rfl | ih
      · exact ha
      · exact (hg.simple_adj).2 ⟨hxy, hC x u y ((hg.simple_adj).1 ha).2 ((hg.simple_adj).1 ih).2 hxy⟩

/-- **C98, which graphs.**  Complete graphs are of this kind, graphs each of whose components is complete, and complete bipartite
graphs. -/
theorem C98_classes (g : GraphI) (hg : g.Lawful) :
    (g.Complete → g.Multipartite) ∧ (g.Cliques → g.Multipartite) ∧
    ∀ A : Nat → Prop, (∀ u ∈ g.nodes, ∀ v ∈ g.nodes, g.Adj u v ↔ (A u ↔ ¬ A v)) → g.Multipartite := by
  have hc : g.Cliques → g.Multipartite := by
    intro hC x z y hxz hxy
    rcases hC.reach hg hxy with rfl | h
    · exact .inr hxz
    · exact .inl h
  refine ⟨fun h => hc (h.cliques hg), hc, fun A hA x z y hxz hxy => ?_⟩
  have ha := (hg.simple_adj).1 hxz
  have hz := hg.adj_mem _ _ ha.2
  have hx := hg.adj_mem _ _ (hg.adj_symm _ _ ha.2)
  have hy := hg.reachable_mem hx hxy
  have hxz' := (hA x hx z hz).1 ha.2
  by_cases h1 : A x ↔ ¬ A y
  · have h2 := (hA x hx y hy).2 h1
    refine .inl ((hg.simple_adj).2 ⟨?_, h2⟩)
    rintro rfl
    tauto
  · have h2 : A y ↔ ¬ A z := by tauto
    refine .inr ((hg.simple_adj).2 ⟨?_, (hA y hy z hz).2 h2⟩)
    rintro rfl
    tauto

/-- The complete graph with five nodes, whose edges are added in another order. -/
def lossyK5 : DefaultGraph := built 5 [(0, 1), (1, 2), (2, 3), (3, 4), (0, 2), (0, 3), (0, 4), (1, 3), (1, 4), (2, 4)]

/-- **C98, the limits.**  The nodes are discovered, but not all edges are reported: of this complete graph with five nodes
`components` yields one graph that has all the nodes and lacks an edge. -/
theorem C98_edges_lost : lossyK5.toI.Lawful ∧ lossyK5.toI.Complete ∧ lossyK5.toI.order = 5 ∧
    ∃ c, Components.Run lossyK5.toI [c] ∧ c.nodes = [0, 1, 2, 3, 4] ∧ c.size < lossyK5.size ∧
      lossyK5.toI.Adj 0 2 ∧ ¬ c.toI.Adj 0 2 := by
  have hN : lossyK5.toI.nodes = [0, 1, 2, 3, 4] := by decide +kernel
  refine ⟨reachable_lawful _ (built_reachable _ _), ?_, by decide +kernel,
    { indices := [(4, 4), (3, 3), (2, 2), (1, 1), (0, 0)],
      adjacency := [[1, 4, 3], [0, 2, 4, 3], [1, 3, 4], [2, 4, 0, 1], [3, 0, 1, 2]],
      nodes := [0, 1, 2, 3, 4],
      edges := [(0, 1), (1, 2), (2, 3), (3, 4), (4, 0), (4, 1), (4, 2), (3, 0), (3, 1)] },
    Components.run_of_all (N := 40) (by decide +kernel), rfl, by decide +kernel,
    GraphI.mem_nbr.1 (by decide +kernel), fun h => absurd (GraphI.mem_nbr.2 h) (by decide +kernel)⟩
  intro u hu v hv hne
  rw [hN] at hu hv
  have key : ∀ u ∈ [0, 1, 2, 3, 4], ∀ v ∈ [0, 1, 2, 3, 4], u ≠ v → v ∈ lossyK5.toI.nbr u := by decide +kernel
  exact GraphI.mem_nbr.1 (key u hu v hv hne)

/-- The complete bipartite graph with three nodes on each side. -/
def k33 : DefaultGraph := built 6 [(0, 3), (0, 4), (0, 5), (1, 3), (1, 4), (1, 5), (2, 3), (2, 4), (2, 5)]

/-- **C98, an example.**  The hypotheses are met by this graph, all of whose nodes are on cycles. -/
theorem C98_example : k33.toI.Lawful ∧ k33.toI.Multipartite ∧ k33.toI.order = 6 ∧
    ∃ steps, DepthFirst.Run k33.toI 0 steps ∧ discovered 0 steps = [0, 3, 1, 4, 2, 5] := by
  have hL : k33.toI.Lawful := reachable_lawful _ (built_reachable _ _)
  have hN : k33.toI.nodes = [0, 1, 2, 3, 4, 5] := by decide +kernel
  refine ⟨hL, (C98_classes _ hL).2.2 (fun v => v < 3) ?_, by decide +kernel, ?_⟩
  · intro u hu v hv
    rw [hN] at hu hv
    have key : ∀ u ∈ [0, 1, 2, 3, 4, 5], ∀ v ∈ [0, 1, 2, 3, 4, 5], v ∈ k33.toI.nbr u ↔ (u < 3 ↔ ¬ v < 3) := by decide +kernel
    rw [← GraphI.mem_nbr]
    exact key u hu v hv
  · exact ⟨[⟨0, 3, false⟩, ⟨3, 1, false⟩, ⟨1, 4, false⟩, ⟨4, 0, true⟩, ⟨4, 2, false⟩, ⟨2, 3, true⟩, ⟨2, 5, false⟩, ⟨5, 0, true⟩,
      ⟨5, 1, true⟩], DepthFirst.run_of_collect (fuel := 30) (by decide +kernel), by decide⟩

/-- The hypotheses of `C98_goes_on` are met by the example graph: after the step from 4 to 7, whose neighbor 2 is not discovered. -/
example : DepthFirst.Run exG.toI 4 exDfs ∧ exDfs = [⟨4, 7, false⟩] ++ [⟨7, 2, false⟩, ⟨2, 4, true⟩, ⟨2, 9, false⟩] ∧
    (discovered 4 [⟨4, 7, false⟩]).getLast? = some 7 ∧ exG.toI.Adj 7 2 ∧ 2 ∉ discovered 4 [⟨4, 7, false⟩] :=
  ⟨exG_dfs, rfl, by decide, GraphI.mem_nbr.1 (by decide +kernel), by decide⟩

end Gamma
