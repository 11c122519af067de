import Verif.Props.Rename
/-
Properties C61–C62: levels of a breadth-first traversal, spanning trees.
-/
namespace Gamma
open Pairing

/-! ### C61 -/

/-- **C61, levels.**  Every step of a breadth-first traversal joins two nodes at the same distance from the root or goes one
further; a step that discovers a node goes one further. -/
theorem C61_bfs_levels (g : GraphI) (hg : g.Lawful) (root : Nat) (steps : List Step) (h : BreadthFirst.Run g root steps)
    (s : Step) (hs : s ∈ steps) :
    (s.cut = false → g.simple.dist root s.tid = g.simple.dist root s.sid + 1) ∧
    (s.cut = true → g.simple.dist root s.tid = g.simple.dist root s.sid ∨
      g.simple.dist root s.tid = g.simple.dist root s.sid + 1) := by
  obtain ⟨h1, h2, -⟩ := C17_bfs_distance g hg root steps h
  have h16 := C16_bfs_discovers g hg root steps h
  have h18 := C18_bfs_edges g hg root steps h
  have h19 := C19_bfs_order g hg root steps h
  refine ⟨h1 s hs, fun _ => ?_⟩
  have hmem : (s.sid, s.tid) ∈ steps.map (fun s => (s.sid, s.tid)) := List.mem_map.2 ⟨s, hs, rfl⟩
  rw [h19, List.mem_flatten] at hmem
  obtain ⟨l, hl, hsl⟩ := hmem
  rw [List.mem_mapIdx] at hl
  obtain ⟨i, hi, rfl⟩ := hl
  rw [List.mem_map] at hsl
  obtain ⟨w, hw, e⟩ := hsl
  rw [Prod.mk.injEq] at e
  obtain ⟨e1, rfl⟩ := e
  obtain ⟨hw1, hw2⟩ := List.mem_filter.1 hw
  rw [e1] at hw1
  have hadj := GraphI.mem_nbr.1 hw1
  have hr := (h18.1 s hs).1
  by_cases hne : s.sid = s.tid
  · left; rw [← hne]
  have hadj' : g.simple.Adj s.sid s.tid := (hg.simple_adj).2 ⟨hne, hadj⟩
  have hle : g.simple.dist root s.tid ≤ g.simple.dist root s.sid + 1 := by
    obtain ⟨p, hp⟩ := hr.exists_walk_length_eq_dist
    have := SimpleGraph.dist_le (p.concat hadj')
    rw [SimpleGraph.Walk.length_concat, hp] at this
    exact this
  have htm : s.tid ∈ discovered root steps := (h16.2 _).2 (hr.trans hadj'.reachable)
  obtain ⟨j, hj, e2⟩ := List.mem_iff_getElem.1 htm
  have hij : i < j := by
    rcases Nat.lt_trichotomy i j with c | c | c
    · exact c
    · subst c; rw [e2] at e1; exact absurd e1.symm hne
    · exfalso
      have : s.tid ∈ (discovered root steps).take i := by
        rw [List.mem_take_iff_getElem]
        exact ⟨j, by omega, e2⟩
      simp [this] at hw2
  have := List.pairwise_iff_getElem.1 h2 i j hi hj hij
  rw [e1, e2] at this
  omega

/-- **C61, bipartite.**  The component of the root is bipartite exactly when no step of a breadth-first traversal joins two
different nodes at the same distance from the root. -/
theorem C61_bfs_decides_bipartite (g : GraphI) (hg : g.Lawful) (root : Nat) (steps : List Step)
    (h : BreadthFirst.Run g root steps) :
    (g.simple.induce {v | g.simple.Reachable root v}).Colorable 2 ↔
      ∀ s ∈ steps, s.sid ≠ s.tid → g.simple.dist root s.tid ≠ g.simple.dist root s.sid := by
  classical
  have h18 := C18_bfs_edges g hg root steps h
  constructor
  · rintro ⟨C⟩ s hs hne he
    have hr := (h18.1 s hs).1
    have hadj : g.simple.Adj s.sid s.tid := (hg.simple_adj).2 ⟨hne, (h18.1 s hs).2⟩
    -- colours alternate along walks from the root
    have key : ∀ u v (p : g.simple.Walk u v) (hu : g.simple.Reachable root u) (hv : g.simple.Reachable root v),
        C ⟨v, hv⟩ = C ⟨u, hu⟩ ↔ p.length % 2 = 0 := by
      intro u v p
      induction p with
      | nil => intro hu hv; simp
      | @cons a b c hab q ih =>
        intro hu hv
        have hb : g.simple.Reachable root b := hu.trans hab.reachable
        have h1 := ih hb hv
        have h2 : C ⟨a, hu⟩ ≠ C ⟨b, hb⟩ := C.valid (by simpa using hab)
        rw [SimpleGraph.Walk.length_cons]
        have a1 : (C ⟨a, hu⟩).val < 2 := (C ⟨a, hu⟩).isLt
        have a2 : (C ⟨b, hb⟩).val < 2 := (C ⟨b, hb⟩).isLt
        have a3 : (C ⟨c, hv⟩).val < 2 := (C ⟨c, hv⟩).isLt
        rw [Fin.ext_iff] at h1 ⊢
        rw [ne_eq, Fin.ext_iff] at h2
        constructor
        · intro h3
          have h4 : (C ⟨c, hv⟩).val ≠ (C ⟨b, hb⟩).val := by omega
          rw [ne_eq, h1] at h4
          omega
        · intro h3
          have h4 : ¬ (C ⟨c, hv⟩).val = (C ⟨b, hb⟩).val := by rw [h1]; omega
          omega
    obtain ⟨p, hp⟩ := hr.exists_walk_length_eq_dist
    have hrt : g.simple.Reachable root s.tid := hr.trans hadj.reachable
    obtain ⟨q, hq⟩ := hrt.exists_walk_length_eq_dist
    have k1 := key _ _ p (.refl _) hr
    have k2 := key _ _ q (.refl _) hrt
    rw [hp] at k1; rw [hq, he, ← k1] at k2
    have hv : C ⟨s.sid, hr⟩ ≠ C ⟨s.tid, hrt⟩ := C.valid (by simpa using hadj)
    have a1 := (C ⟨s.sid, hr⟩).isLt
    have a2 := (C ⟨s.tid, hrt⟩).isLt
    have a3 := (C ⟨root, .refl _⟩).isLt
    have e1 : (C ⟨s.tid, hrt⟩).val = (C ⟨root, .refl _⟩).val ↔ (C ⟨s.sid, hr⟩).val = (C ⟨root, .refl _⟩).val := by
      rw [← Fin.ext_iff, ← Fin.ext_iff]; exact k2
    rw [ne_eq, Fin.ext_iff] at hv
    omega
  · intro hno
    refine ⟨SimpleGraph.Coloring.mk (fun v => (⟨g.simple.dist root v.1 % 2, by omega⟩ : Fin 2)) ?_⟩
    rintro ⟨u, hu⟩ ⟨v, hv⟩ hadj
    have hadj' : g.simple.Adj u v := by simpa using hadj
    have hne := hadj'.ne
    have ha := (hg.simple_adj.1 hadj').2
    have hj := h18.2 u v hu hne ha
    obtain ⟨s, hs, e⟩ := exists_joinCount (u := u) (v := v) (st := steps) (by omega)
    have hlev := C61_bfs_levels g hg root steps h s hs
    have key : ∀ a b, s.sid = a → s.tid = b → a ≠ b → g.simple.dist root b = g.simple.dist root a + 1 := by
      rintro a b rfl rfl hab
      cases hc : s.cut with
      | false => exact hlev.1 hc
      | true =>
        rcases hlev.2 hc with h1 | h1
        · exact absurd h1 (hno s hs hab)
        · exact h1
    rw [ne_eq, Fin.ext_iff]
    rcases e with ⟨e1, e2⟩ | ⟨e1, e2⟩
    · have := key u v e1 e2 hne
      simp only; omega
    · have := key v u e1 e2 hne.symm
      simp only; omega

/-- On the example the component of 4 has a triangle: the step from 7 to 2 joins two nodes at distance 1. -/
example : exG.toI.Lawful ∧ BreadthFirst.Run exG.toI 4 exBfs ∧ (⟨7, 2, true⟩ : Step) ∈ exBfs ∧
    exG.toI.simple.dist 4 7 = exG.toI.simple.dist 4 2 ∧
    ¬ (exG.toI.simple.induce {v | exG.toI.simple.Reachable 4 v}).Colorable 2 := by
  have h7 := (C17_bfs_distance _ exG_lawful 4 exBfs exG_bfs).1 ⟨4, 7, false⟩ (by decide) rfl
  have h2 := (C17_bfs_distance _ exG_lawful 4 exBfs exG_bfs).1 ⟨4, 2, false⟩ (by decide) rfl
  have e : exG.toI.simple.dist 4 7 = exG.toI.simple.dist 4 2 := by simp only at h7 h2; omega
  refine ⟨exG_lawful, exG_bfs, by decide, e, ?_⟩
  rw [C61_bfs_decides_bipartite _ exG_lawful 4 exBfs exG_bfs]
  intro h
  exact h ⟨7, 2, true⟩ (by decide) (by decide) e.symm

/-! ### C62 -/

/-- The graph whose edges are the discovery steps of a traversal. -/
def discoveryGraph (steps : List Step) : SimpleGraph Nat :=
  SimpleGraph.fromEdgeSet {e | ∃ s ∈ steps, s.cut = false ∧ e = s(s.sid, s.tid)}

theorem discoveryGraph_adj {steps : List Step} {u v : Nat} :
    (discoveryGraph steps).Adj u v ↔
      (∃ s ∈ steps, s.cut = false ∧ ((s.sid = u ∧ s.tid = v) ∨ (s.sid = v ∧ s.tid = u))) ∧ u ≠ v := by
  simp only [discoveryGraph, SimpleGraph.fromEdgeSet_adj, Set.mem_setOf_eq, Sym2.eq_iff]
  constructor
  · rintro ⟨⟨s, h1, h2, h3⟩, hne⟩
    exact ⟨⟨s, h1, h2, by rcases h3 with ⟨a, b⟩ | ⟨a, b⟩ <;> simp [a, b]⟩, hne⟩
  · rintro ⟨⟨s, h1, h2, h3⟩, hne⟩
    exact ⟨⟨s, h1, h2, by rcases h3 with ⟨a, b⟩ | ⟨a, b⟩ <;> simp [a, b]⟩, hne⟩

theorem Truthful.acyclic {root : Nat} {st : List Step} (h : Truthful root st) : (discoveryGraph st).IsAcyclic := by
  induction st using List.reverseRecOn with
  | nil =>
    have : discoveryGraph [] = ⊥ := by ext u v; simp [discoveryGraph_adj]
    rw [this]; exact SimpleGraph.isAcyclic_bot
  | append_singleton st s ih =>
    have h' : Truthful root st := h.prefix
    have hs := h st s [] rfl
    cases hc : s.cut with
    | true =>
      have : discoveryGraph (st ++ [s]) = discoveryGraph st := by
        ext u v
        rw [discoveryGraph_adj, discoveryGraph_adj]
        simp [or_and_right, exists_or, hc]
      rw [this]; exact ih h'
    | false =>
      have hne := h.ne (s := s) (by simp) hc
      have : discoveryGraph (st ++ [s]) = discoveryGraph st ⊔ SimpleGraph.edge s.sid s.tid := by
        ext u v
        rw [SimpleGraph.sup_adj, discoveryGraph_adj, discoveryGraph_adj, SimpleGraph.edge_adj]
        simp only [List.mem_append, List.mem_singleton]
        constructor
        · rintro ⟨⟨x, hx | rfl, a, b⟩, huv⟩
          · exact Or.inl ⟨⟨x, hx, a, b⟩, huv⟩
          · refine Or.inr ⟨?_, huv⟩
            rcases b with ⟨a, b⟩ | ⟨a, b⟩ <;> simp [a, b]
        · rintro (⟨⟨x, hx, a, b⟩, hne⟩ | ⟨b, hne⟩)
          · exact ⟨⟨x, Or.inl hx, a, b⟩, hne⟩
          · refine ⟨⟨s, Or.inr rfl, hc, ?_⟩, hne⟩
            rcases b with ⟨a, b⟩ | ⟨a, b⟩ <;> simp [a, b]
      rw [this]
      refine (ih h').sup_edge_of_not_reachable ?_
      intro hr
      have hnew : s.tid ∉ discovered root st := by rw [← hs.2, hc]; simp
      obtain ⟨w⟩ := hr.symm
      generalize s.sid = a at w hne
      generalize s.tid = b at w hne hnew
      cases w with
      | nil => exact hne rfl
      | cons ha _ =>
        obtain ⟨⟨x, hx, -, e⟩, -⟩ := discoveryGraph_adj.1 ha
        rcases e with ⟨e, -⟩ | ⟨-, e⟩
        · exact hnew (e ▸ h'.sid_mem hx)
        · exact hnew (e ▸ h'.tid_mem hx)

theorem Truthful.spanning {root : Nat} {st : List Step} (h : Truthful root st) (v : Nat) :
    (discoveryGraph st).Reachable root v ↔ v ∈ discovered root st := by
  constructor
  · intro hr
    obtain ⟨w⟩ := hr.symm
    cases w with
    | nil => simp [discovered]
    | cons ha _ =>
      obtain ⟨⟨x, hx, -, e⟩, -⟩ := discoveryGraph_adj.1 ha
      rcases e with ⟨e, -⟩ | ⟨-, e⟩
      · exact e ▸ h.sid_mem hx
      · exact e ▸ h.tid_mem hx
  · exact h.reachable_in _ (fun s hs hc => discoveryGraph_adj.2 ⟨⟨s, hs, hc, Or.inl ⟨rfl, rfl⟩⟩, h.ne hs hc⟩) v

theorem Truthful.discoveryGraph_le {g : GraphI} (hg : g.Lawful) {st : List Step}
    (ha : ∀ s ∈ st, g.Adj s.sid s.tid) : discoveryGraph st ≤ g.simple := by
  intro u v h
  obtain ⟨⟨x, hx, -, e⟩, hne⟩ := discoveryGraph_adj.1 h
  have := (hg.simple_adj).2 ⟨?_, ha x hx⟩
  · rcases e with ⟨rfl, rfl⟩ | ⟨rfl, rfl⟩
    · exact this
    · exact this.symm
  · rcases e with ⟨rfl, rfl⟩ | ⟨rfl, rfl⟩
    · exact hne
    · exact hne.symm

/-- **C62, breadth-first.**  The steps of a breadth-first traversal that discover a node are edges of the graph, contain no
cycle, and connect the root to exactly the nodes of its component: they are a spanning tree.  Distances from the root inside the
tree are the distances in the graph. -/
theorem C62_bfs_spanning_tree (g : GraphI) (hg : g.Lawful) (root : Nat) (steps : List Step)
    (h : BreadthFirst.Run g root steps) :
    discoveryGraph steps ≤ g.simple ∧ (discoveryGraph steps).IsAcyclic ∧
    (∀ v, (discoveryGraph steps).Reachable root v ↔ g.simple.Reachable root v) ∧
    (∀ v, (discoveryGraph steps).dist root v = g.simple.dist root v) := by
  have h16 := C16_bfs_discovers g hg root steps h
  obtain ⟨hd, -⟩ := C17_bfs_distance g hg root steps h
  have hsp : ∀ v, (discoveryGraph steps).Reachable root v ↔ g.simple.Reachable root v := by
    intro v
    rw [← h16.2]
    obtain ⟨hr, b, i, q⟩ := h.inv hg
    exact i.truth.spanning v
  obtain ⟨hr, b, i, q⟩ := h.inv hg
  have hle := Truthful.discoveryGraph_le hg (fun s hs => i.step_adj hs)
  refine ⟨hle, i.truth.acyclic, hsp, ?_⟩
  -- tree walks from the root of length at most the distance
  have key : ∀ n v, g.simple.dist root v = n → v ∈ discovered root steps →
      ∃ p : (discoveryGraph steps).Walk root v, p.length = n := by
    intro n
    induction n with
    | zero =>
      intro v hv hm
      have := ((h16.2 v).1 hm).dist_eq_zero_iff.1 hv
      subst this
      exact ⟨.nil, rfl⟩
    | succ n ih =>
      intro v hv hm
      rcases mem_discovered.1 hm with rfl | ⟨s, hs, hc, rfl⟩
      · rw [SimpleGraph.dist_self] at hv; omega
      · have e := hd s hs hc
        obtain ⟨p, hp⟩ := ih s.sid (by omega) (i.truth.sid_mem hs)
        have ha : (discoveryGraph steps).Adj s.sid s.tid :=
          discoveryGraph_adj.2 ⟨⟨s, hs, hc, Or.inl ⟨rfl, rfl⟩⟩, i.truth.ne hs hc⟩
        exact ⟨p.concat ha, by rw [SimpleGraph.Walk.length_concat, hp]⟩
  intro v
  by_cases hv : g.simple.Reachable root v
  · obtain ⟨p, hp⟩ := key _ v rfl ((h16.2 v).2 hv)
    have h1 := SimpleGraph.dist_le p
    obtain ⟨q, hq⟩ := ((hsp v).2 hv).exists_walk_length_eq_dist
    have h2 := SimpleGraph.dist_le (q.mapLe hle)
    rw [SimpleGraph.Walk.length_mapLe] at h2
    omega
  · rw [SimpleGraph.dist_eq_zero_of_not_reachable hv,
      SimpleGraph.dist_eq_zero_of_not_reachable (fun c => hv ((hsp v).1 c))]

/-- **C62, depth-first.**  The steps of a depth-first traversal that discover a node are edges of the graph, contain no cycle, and
connect the root to exactly the discovered nodes. -/
theorem C62_dfs_tree (g : GraphI) (hg : g.Lawful) (root : Nat) (steps : List Step)
    (h : DepthFirst.Run g root steps) :
    discoveryGraph steps ≤ g.simple ∧ (discoveryGraph steps).IsAcyclic ∧
    (∀ v, (discoveryGraph steps).Reachable root v ↔ v ∈ discovered root steps) := by
  obtain ⟨hr, d, d', -, -, -, i, q⟩ := h.inv hg
  exact ⟨Truthful.discoveryGraph_le hg i.step_adj, i.truth.acyclic, i.truth.spanning⟩

/-- The trees of the example leave out the closing steps. -/
example : BreadthFirst.Run exG.toI 4 exBfs ∧ DepthFirst.Run exG.toI 4 exDfs ∧
    exG.toI.simple.Adj 7 2 ∧ ¬ (discoveryGraph exBfs).Adj 7 2 ∧ (discoveryGraph exBfs).Adj 4 2 ∧
    (discoveryGraph exDfs).Reachable 4 9 := by
  refine ⟨exG_bfs, exG_dfs, ?_, ?_, ?_, ?_⟩
  · rw [exG_lawful.simple_adj]; exact ⟨by decide, by rw [← GraphI.mem_nbr]; decide +kernel⟩
  · rw [discoveryGraph_adj]; decide
  · rw [discoveryGraph_adj]; decide
  · exact ((C62_dfs_tree _ exG_lawful 4 exDfs exG_dfs).2.2 9).2 (by decide)

end Gamma
