import Verif.Props.Rename
import Verif.Proofs.Isomorphic
/-
Property C72: maximum_matching depends on the order of nodes, neighbors and edges, not on the ids, nor on the direction in
which edges() reports the edges.
-/
namespace Gamma
open Pairing

/-! ### C72 -/

theorem GraphI.Renamed.along {f : Nat → Nat} {g h : GraphI} (hg : g.Lawful) (hh : h.Lawful) (hr : GraphI.Renamed f g h) :
    ∃ φ : Nat → Nat, GraphI.Along φ g h ∧ ∀ v ∈ g.nodes, φ v = f v := by
  obtain ⟨φ, hφ, e⟩ := exists_injective f g.nodes hr.inj
  refine ⟨φ, ⟨hφ, hg, hh, ?_, fun v hv => ?_⟩, e⟩
  · rw [hr.nodes]; exact List.map_congr_left (fun v hv => (e v hv).symm)
  · rw [e v hv, GraphI.nbr_of_ok (hr.neighbors v hv _ (hg.neighbors_eq hv))]
    exact List.map_congr_left (fun w hw => (e w (hg.adj_mem _ _ (GraphI.mem_nbr.1 hw))).symm)

theorem pren_iff {f φ : Nat → Nat} {g h : GraphI} {p q : Pairing} (a : GraphI.Along φ g h) (e : ∀ v ∈ g.nodes, φ v = f v)
    (hp : p.Matches g) (hq : q.Matches h) : PRen φ g p q ↔ RenamedPairs f g p q := by
  constructor
  · intro h x' y'
    constructor
    · intro hm
      obtain ⟨x, y, rfl, rfl, hxy, hx⟩ := h.back a hq (mate_eq_ok.1 hm)
      exact ⟨x, hx, y, hp.mem_right a.lawful hxy, e x hx, e y (hp.mem_right a.lawful hxy), mate_of_some hxy⟩
    · rintro ⟨x, hx, y, hy, rfl, rfl, hm⟩
      apply mate_of_some
      rw [← e x hx, ← e y hy, h x hx, mate_eq_ok.1 hm]; rfl
  · intro h v hv
    cases c : p.get v with
    | some w =>
      have hw := hp.mem_right a.lawful c
      rw [e v hv, Option.map_some, e w hw]
      exact mate_eq_ok.1 ((h (f v) (f w)).2 ⟨v, hv, w, hw, rfl, rfl, mate_of_some c⟩)
    | none =>
      cases c' : q.get (φ v) with
      | none => rfl
      | some w' =>
        obtain ⟨x, hx, y, hy, e1, e2, hm⟩ := (h _ _).1 (mate_of_some c')
        rw [← e x hx] at e1
        rw [a.inj e1, mate_eq_ok.1 hm] at c
        cases c

/-- **C72.** `maximum_matching` depends on the order in which nodes, neighbors and edges are listed only: on a graph with
other ids, and with edges reported in the other direction, and the pairing with the other ids, every run ends as before,
and if it returns, with the same pairs under their new names.  Provided there is room for the blossoms' ids. -/
theorem C72_maximum_matching_renamed (f : Nat → Nat) (g h : GraphI) (hg : g.Lawful) (hh : h.Lawful) (he : g.edges.Nodup)
    (he' : h.edges.Nodup) (hr : GraphI.Renamed f g h) (hE : List.Forall₂ (RenamedEdge f) g.edges h.edges)
    (p q : Pairing) (hp : p.Matches g) (hq : q.Matches h) (hpq : RenamedPairs f g p q) (pf : Platform)
    (hr1 : Headroom pf g) (hr2 : Headroom pf h) (ords ords' : List Bool → Nat → HashOrder) (ho : ∀ l i, (ords l i).Valid)
    (ho' : ∀ l i, (ords' l i).Valid) (fuel : Nat) :
    (maximumMatching pf fuel ords g p).SameBy (RenamedPairs f g) (maximumMatching pf fuel ords' h q) := by
  obtain ⟨φ, a, e⟩ := hr.along hg hh
  have hE' : List.Forall₂ (EdgeRen φ) g.edges h.edges := edgeRen_agree (φ := f) hg e hE
  rcases maximumMatching_ren a hE' he he' hr1 hr2 fuel hp hq ((pren_iff a e hp hq).2 hpq) ho ho' with
    ⟨p', q', e1, e2, m1, m2, hr'⟩ | ⟨m, e1, e2⟩ | ⟨e1, e2⟩
  · rw [e1, e2]; exact (pren_iff a e m1 m2).1 hr'
  · rw [e1, e2]; exact rfl
  · rw [e1, e2]; exact trivial

/-- **C72, `greedy` first.**  So do `greedy` and `maximum_matching` one after the other. -/
theorem C72_greedy_then_matching_renamed (f : Nat → Nat) (g h : GraphI) (hg : g.Lawful) (hh : h.Lawful)
    (he : g.edges.Nodup) (he' : h.edges.Nodup) (hr : GraphI.Renamed f g h)
    (hE : List.Forall₂ (RenamedEdge f) g.edges h.edges) (p q : Pairing) (hp : GreedyReturns g p) (hq : GreedyReturns h q)
    (pf : Platform) (hr1 : Headroom pf g) (hr2 : Headroom pf h) (ords ords' : List Bool → Nat → HashOrder)
    (ho : ∀ l i, (ords l i).Valid) (ho' : ∀ l i, (ords' l i).Valid) (fuel : Nat) :
    (maximumMatching pf fuel ords g p).SameBy (RenamedPairs f g) (maximumMatching pf fuel ords' h q) := by
  obtain ⟨p1, q1, N, h1, m1, m2, -⟩ := greedy_rename hg hh hp hq hr
  have e1 := hp.unique (greedyReturns_of (h1 N (le_refl N)).1)
  have e2 := hq.unique (greedyReturns_of (h1 N (le_refl N)).2)
  subst e1 e2
  exact C72_maximum_matching_renamed f g h hg hh he he' hr hE p q m1 m2 (C60_greedy_renamed f g h hg hh hr p q hp hq) pf
    hr1 hr2 ords ords' ho ho' fuel

theorem DRel.perform {φ : Nat → Nat} {r r' : DefaultGraph} (h : DRel φ r r') {o o' : GraphOp} (ho : RenamedOp φ o o') :
    DRel φ (r.perform o) (r'.perform o') := by
  have hw := h.reach.wf
  have hw' := h.reach'.wf
  have hedge : ∀ s t s' t', EdgeRen φ (s, t) (s', t') → DRel φ (r.addEdge s t).1 (r'.addEdge s' t').1 := by
    intro s t s' t' hst
    have key : (s' ∈ r'.nodes ∧ t' ∈ r'.nodes ∧ r'.toI.Adj s' t') ↔ (s ∈ r.nodes ∧ t ∈ r.nodes ∧ r.toI.Adj s t) := by
      have hm : ∀ v, φ v ∈ r'.nodes ↔ v ∈ r.nodes := fun v => h.along.mem
      have sy : ∀ u v, r.toI.Adj u v ↔ r.toI.Adj v u := fun u v => ⟨fun a => h.along.lawful.adj_symm _ _ a, fun a => h.along.lawful.adj_symm _ _ a⟩
      rcases hst with e | e <;> simp only [Prod.mk.injEq] at e <;> obtain ⟨rfl, rfl⟩ := e <;> rw [hm, hm, h.along.adj]
      rw [sy t s]; tauto
    have key2 : (s' ∈ r'.nodes ∧ t' ∈ r'.nodes) ↔ (s ∈ r.nodes ∧ t ∈ r.nodes) := by
      have hm : ∀ v, φ v ∈ r'.nodes ↔ v ∈ r.nodes := fun v => h.along.mem
      rcases hst with e | e <;> simp only [Prod.mk.injEq] at e <;> obtain ⟨rfl, rfl⟩ := e <;> rw [hm, hm]
      tauto
    have same : ∀ {c : DefaultGraph} (_ : c.WF) {a b : Nat}, ¬ (a ∈ c.nodes ∧ b ∈ c.nodes) ∨ c.toI.Adj a b → (c.addEdge a b).1 = c := by
      intro c hc a b hab
      by_cases ha : a ∈ c.nodes
      · by_cases hb : b ∈ c.nodes
        · rw [hc.addEdge_dup ha hb (hab.resolve_left (by simp [ha, hb]))]
        · rw [hc.addEdge_missing_right ha hb]
      · rw [hc.addEdge_missing_left ha]
    by_cases hn : s ∈ r.nodes ∧ t ∈ r.nodes
    · by_cases ha : r.toI.Adj s t
      · rw [same hw (.inr ha), same hw' (.inr (key.2 ⟨hn.1, hn.2, ha⟩).2.2)]; exact h
      · have hn' := key2.2 hn
        have ha' : ¬ r'.toI.Adj s' t' := fun hc => ha (key.1 ⟨hn'.1, hn'.2, hc⟩).2.2
        obtain ⟨r1, e1, rfl, -⟩ := DefaultGraph.addEdgeQ_new hw hn.1 hn.2 ha
        obtain ⟨r2, e2, rfl, -⟩ := DefaultGraph.addEdgeQ_new hw' hn'.1 hn'.2 ha'
        exact h.addEdge e1 hst e2
    · rw [same hw (.inl hn), same hw' (.inl (fun hc => hn (key2.1 hc)))]; exact h
  cases ho with
  | node v =>
    by_cases hv : v ∈ r.nodes
    · have hv' : φ v ∈ r'.nodes := h.along.mem.2 hv
      show DRel φ (r.addNode v).1 (r'.addNode (φ v)).1
      rw [hw.addNode_dup hv, hw'.addNode_dup hv']; exact h
    · have hv' : φ v ∉ r'.nodes := fun hc => hv (h.along.mem.1 hc)
      obtain ⟨r1, e1, rfl, -⟩ := DefaultGraph.addNodeQ_new hw hv
      obtain ⟨r2, e2, rfl, -⟩ := DefaultGraph.addNodeQ_new hw' hv'
      exact h.addNode e1 e2
  | edge s t => exact hedge _ _ _ _ (.inl rfl)
  | flipped s t => exact hedge _ _ _ _ (.inr rfl)

theorem DRel.foldl {φ : Nat → Nat} {ops ops' : List GraphOp} (h : List.Forall₂ (RenamedOp φ) ops ops') :
    ∀ {r r' : DefaultGraph}, DRel φ r r' → DRel φ (ops.foldl DefaultGraph.perform r) (ops'.foldl DefaultGraph.perform r') := by
  induction h with
  | nil => exact fun h => h
  | cons ho _ ih => exact fun h => ih (h.perform ho)

theorem RenamedOp.agree {f φ : Nat → Nat} {o o' : GraphOp} (h : RenamedOp f o o') (e : ∀ v ∈ o.ids, φ v = f v) :
    RenamedOp φ o o' := by
  cases h with
  | node v => rw [← e v (by simp [GraphOp.ids])]; exact .node v
  | edge s t => rw [← e s (by simp [GraphOp.ids]), ← e t (by simp [GraphOp.ids])]; exact .edge s t
  | flipped s t => rw [← e s (by simp [GraphOp.ids]), ← e t (by simp [GraphOp.ids])]; exact .flipped s t

/-- **C72, building.**  Two graphs built by the same calls of `add_node` and `add_edge`, but for the ids and the direction of
edges, are one another's renaming: what is said of `Renamed` graphs in C59, C60 and above applies to them. -/
theorem C72_built_renamed (f : Nat → Nat) (ops ops' : List GraphOp) (h : List.Forall₂ (RenamedOp f) ops ops')
    (inj : ∀ u ∈ ops.flatMap GraphOp.ids, ∀ v ∈ ops.flatMap GraphOp.ids, f u = f v → u = v) :
    GraphI.Renamed f (ops.foldl DefaultGraph.perform .new).toI (ops'.foldl DefaultGraph.perform .new).toI ∧
    List.Forall₂ (RenamedEdge f) (ops.foldl DefaultGraph.perform .new).edges
      (ops'.foldl DefaultGraph.perform .new).edges := by
  obtain ⟨φ, hφ, e⟩ := exists_injective f _ inj
  have h' : List.Forall₂ (RenamedOp φ) ops ops' := by
    clear inj
    induction h with
    | nil => exact .nil
    | cons ho _ ih =>
      exact .cons (ho.agree (fun v hv => e v (by simp [hv]))) (ih (fun v hv => e v (by
        rw [List.flatMap_cons, List.mem_append]; exact .inr hv)))
  have d := DRel.foldl h' (DRel.new hφ)
  have hn : ∀ v ∈ (ops.foldl DefaultGraph.perform .new).toI.nodes, v ∈ ops.flatMap GraphOp.ids := by
    have key : ∀ (ops : List GraphOp) (r : DefaultGraph), r.Reachable → ∀ v ∈ (ops.foldl DefaultGraph.perform r).nodes,
        v ∈ r.nodes ∨ v ∈ ops.flatMap GraphOp.ids := by
      intro ops
      induction ops with
      | nil => exact fun r _ v hv => .inl hv
      | cons o ops ih =>
        intro r hr v hv
        cases o with
        | node a =>
          rcases ih _ (hr.addNode r a) v hv with hv | hv
          · by_cases ha : a ∈ r.nodes
            · rw [hr.wf.addNode_dup ha] at hv; exact .inl hv
            · obtain ⟨r1, e1, rfl, hA⟩ := DefaultGraph.addNodeQ_new hr.wf ha
              rw [hA.nodes, List.mem_append, List.mem_singleton] at hv
              rcases hv with hv | rfl
              · exact .inl hv
              · exact .inr (by simp [GraphOp.ids])
          · exact .inr (by rw [List.flatMap_cons, List.mem_append]; exact .inr hv)
        | edge a b =>
          rcases ih _ (hr.addEdge r a b) v hv with hv | hv
          · left
            have hC := C02_add_edge r hr a b
            change v ∈ (r.addEdge a b).1.nodes at hv
            by_cases c1 : r.hasNode a = true
            · by_cases c2 : r.hasNode b = true
              · by_cases c3 : r.hasEdge a b = .ok true
                · rw [hC.2.2.1 c1 c2 c3] at hv; exact hv
                · rw [(hC.2.2.2 c1 c2 c3).2.1] at hv; exact hv
              · rw [hC.2.1 c1 (by simpa using c2)] at hv; exact hv
            · rw [hC.1 (by simpa using c1)] at hv; exact hv
          · exact .inr (by rw [List.flatMap_cons, List.mem_append]; exact .inr hv)
    intro v hv
    rcases key ops .new .new v hv with h0 | h0
    · simp [DefaultGraph.new] at h0
    · exact h0
  refine ⟨⟨fun u hu v hv => inj u (hn u hu) v (hn v hv), ?_, ?_⟩, ?_⟩
  · rw [d.along.nodes]; exact List.map_congr_left (fun v hv => e v (hn v hv))
  · intro v hv l hl
    have hv' := d.along.mem.2 hv
    rw [← e v (hn v hv), d.along.lawful'.neighbors_eq hv', d.along.nbr v hv, GraphI.nbr_of_ok hl]
    congr 1
    refine List.map_congr_left (fun w hw => e w (hn w (d.along.lawful.adj_mem v w ?_)))
    rw [← GraphI.nbr_of_ok hl] at hw
    exact GraphI.mem_nbr.1 hw
  · exact edgeRen_agree (φ := φ) (h := (ops'.foldl DefaultGraph.perform .new).toI) d.along.lawful (fun v hv => (e v (hn v hv)).symm) d.edges

/-- Calls that build the triangle with a tail (`tri`), and calls with the ids 0, 1, 2, 3 replaced by 8, 5, 6, 2 and two edges
given in the other direction. -/
def triOps : List GraphOp := [.node 0, .node 1, .node 2, .node 3, .edge 0 1, .edge 0 2, .edge 1 2, .edge 2 3]
def triOps' : List GraphOp := [.node 8, .node 5, .node 6, .node 2, .edge 5 8, .edge 8 6, .edge 5 6, .edge 2 6]

/-- The new names. -/
def triF (x : Nat) : Nat := if x = 0 then 8 else if x = 1 then 5 else if x = 2 then 6 else 2

/-- The hypotheses of C72 hold for these, from the pair 1-2 (now 5-6), and the run contracts a blossom and ends with the pairs
0-1 and 2-3 (now 8-5 and 6-2). -/
example (b : Bool) : List.Forall₂ (RenamedOp triF) triOps triOps' ∧
    (∀ u ∈ triOps.flatMap GraphOp.ids, ∀ v ∈ triOps.flatMap GraphOp.ids, triF u = triF v → u = v) ∧
    (∃ g h, g = triOps.foldl DefaultGraph.perform .new ∧ h = triOps'.foldl DefaultGraph.perform .new ∧
      g.edges = [(0, 1), (0, 2), (1, 2), (2, 3)] ∧ h.edges = [(5, 8), (8, 6), (5, 6), (2, 6)] ∧
      g.edges.Nodup ∧ h.edges.Nodup ∧ (pairingOf [(1, 2)]).Matches g.toI ∧ (pairingOf [(5, 6)]).Matches h.toI ∧
      RenamedPairs triF g.toI (pairingOf [(1, 2)]) (pairingOf [(5, 6)]) ∧ Headroom (pf64 b) g.toI ∧ Headroom (pf64 b) h.toI ∧
      maximumMatching (pf64 b) 14 (fun _ _ => id) g.toI (pairingOf [(1, 2)]) = .ok (pairingOf [(0, 1), (2, 3)]) ∧
      maximumMatching (pf64 b) 14 (fun _ _ => id) h.toI (pairingOf [(5, 6)]) = .ok (pairingOf [(8, 5), (6, 2)])) := by
  have h1 : List.Forall₂ (RenamedOp triF) triOps triOps' :=
    .cons (.node 0) (.cons (.node 1) (.cons (.node 2) (.cons (.node 3) (.cons (.flipped 0 1) (.cons (.edge 0 2)
      (.cons (.edge 1 2) (.cons (.flipped 2 3) .nil)))))))
  have h2 : ∀ u ∈ triOps.flatMap GraphOp.ids, ∀ v ∈ triOps.flatMap GraphOp.ids, triF u = triF v → u = v := by decide
  have r := C72_built_renamed triF triOps triOps' h1 h2
  have d1 : (triOps.foldl DefaultGraph.perform .new).Reachable := by
    simp only [triOps, List.foldl, DefaultGraph.perform]
    repeat (first | exact .new | apply DefaultGraph.Reachable.addNode | apply DefaultGraph.Reachable.addEdge)
  have d2 : (triOps'.foldl DefaultGraph.perform .new).Reachable := by
    simp only [triOps', List.foldl, DefaultGraph.perform]
    repeat (first | exact .new | apply DefaultGraph.Reachable.addNode | apply DefaultGraph.Reachable.addEdge)
  have m1 : (pairingOf [(1, 2)]).Matches (triOps.foldl DefaultGraph.perform .new).toI := matches_of_test (by decide +kernel)
  have m2 : (pairingOf [(5, 6)]).Matches (triOps'.foldl DefaultGraph.perform .new).toI := matches_of_test (by decide +kernel)
  refine ⟨h1, h2, _, _, rfl, rfl, by decide +kernel, by decide +kernel, by decide +kernel, by decide +kernel, m1, m2, ?_,
    headroom_of (by cases b <;> decide +kernel), headroom_of (by cases b <;> decide +kernel), by cases b <;> decide +kernel,
    by cases b <;> decide +kernel⟩
  obtain ⟨φ, a, e⟩ := r.1.along (reachable_lawful _ d1) (reachable_lawful _ d2)
  rw [← pren_iff a e m1 m2]
  have key : ∀ v ∈ (triOps.foldl DefaultGraph.perform .new).toI.nodes,
      (pairingOf [(5, 6)]).get (triF v) = ((pairingOf [(1, 2)]).get v).map triF := by decide +kernel
  exact PRen.agree (reachable_lawful _ d1) m1 key e

/-- **C72, what goes wrong goes wrong under any names.**  However the graph of `C41_panics` is renamed, and whichever way its
edges are given, `maximum_matching` from the empty pairing panics on it; and likewise it runs for ever on the graph of
`C42_diverges`. -/
theorem C72_failures_renamed (f : Nat → Nat) (h : GraphI) (hh : h.Lawful) (he : h.edges.Nodup) (b : Bool)
    (hr : Headroom (pf64 b) h) (ords : List Bool → Nat → HashOrder) (ho : ∀ l i, (ords l i).Valid) (fuel : Nat) :
    (GraphI.Renamed f panicG.toI h → List.Forall₂ (RenamedEdge f) panicG.toI.edges h.edges → 20 ≤ fuel →
      maximumMatching (pf64 b) fuel ords h Pairing.new = .panic "even path augmentation") ∧
    (GraphI.Renamed f loopG.toI h → List.Forall₂ (RenamedEdge f) loopG.toI.edges h.edges →
      maximumMatching (pf64 b) fuel ords h Pairing.new = .timeout) := by
  have hnew : ∀ {k : GraphI}, Pairing.new.Matches k := by
    intro k
    refine ⟨symmetric_new, fun x y hm => ?_⟩
    have := mate_eq_ok.1 hm
    simp [Pairing.new, Pairing.get] at this
  have hren : ∀ {k : GraphI}, RenamedPairs f k Pairing.new Pairing.new := by
    intro k x' y'
    have : ∀ x y, Pairing.new.mate x ≠ .ok y := by
      intro x y hm
      have := mate_eq_ok.1 hm
      simp [Pairing.new, Pairing.get] at this
    exact ⟨fun h => absurd h (this _ _), fun ⟨x, _, y, _, _, _, h⟩ => absurd h (this _ _)⟩
  constructor
  · intro r rE hf
    have := C72_maximum_matching_renamed f _ h (graphOf_lawful _) hh (graphOf_edges _) he r rE _ _ hnew hnew hren (pf64 b)
      (headroom_of (by cases b <;> decide +kernel)) hr (fun _ _ => id) ords (fun _ _ => HashOrder.id_valid) ho fuel
    rw [show maximumMatching (pf64 b) fuel (fun _ _ => id) (graphOf _).toI Pairing.new = _ from
      C41_panics b _ (fun _ _ => HashOrder.id_valid) fuel hf] at this
    revert this
    cases maximumMatching (pf64 b) fuel ords h Pairing.new <;> simp [Out.SameBy]
    exact fun e => e.symm
  · intro r rE
    have := C72_maximum_matching_renamed f _ h (graphOf_lawful _) hh (graphOf_edges _) he r rE _ _ hnew hnew hren (pf64 b)
      (headroom_of (by cases b <;> decide +kernel)) hr (fun _ _ => id) ords (fun _ _ => HashOrder.id_valid) ho fuel
    rw [show maximumMatching (pf64 b) fuel (fun _ _ => id) (graphOf _).toI Pairing.new = _ from
      C42_diverges b _ (fun _ _ => HashOrder.id_valid) fuel] at this
    revert this
    cases maximumMatching (pf64 b) fuel ords h Pairing.new <;> simp [Out.SameBy]

/-- A case: the graph of `C41_panics` with its ids times three, and its first and fourth edge given the other way round. -/
example (b : Bool) : ∃ h : DefaultGraph, h.Reachable ∧ h.toI.edges.Nodup ∧ Headroom (pf64 b) h.toI ∧
    GraphI.Renamed (fun v => 3 * v) panicG.toI h.toI ∧ List.Forall₂ (RenamedEdge (fun v => 3 * v)) panicG.toI.edges h.toI.edges := by
  have hn : panicG.toI.nodes = [5, 1, 2, 0, 3, 4] := by decide +kernel
  refine ⟨[GraphOp.node 15, .node 3, .node 6, .node 0, .node 9, .node 12, .edge 3 15, .edge 6 3, .edge 3 0, .edge 6 9,
    .edge 9 15, .edge 6 0, .edge 0 15, .edge 12 6].foldl DefaultGraph.perform .new, ?_, by decide +kernel,
    headroom_of (by cases b <;> decide +kernel), ⟨?_, by decide +kernel, ?_⟩, ?_⟩
  · simp only [List.foldl, DefaultGraph.perform]
    repeat (first | exact .new | apply DefaultGraph.Reachable.addNode | apply DefaultGraph.Reachable.addEdge)
  · intro u _ v _ e; simpa using e
  · intro v hv l hl
    have key : ∀ v ∈ panicG.toI.nodes, ([GraphOp.node 15, .node 3, .node 6, .node 0, .node 9, .node 12, .edge 3 15, .edge 6 3, .edge 3 0,
        .edge 6 9, .edge 9 15, .edge 6 0, .edge 0 15, .edge 12 6].foldl DefaultGraph.perform .new).toI.neighbors (3 * v) =
        .ok ((panicG.toI.nbr v).map (fun v => 3 * v)) := by decide +kernel
    rw [key v hv, GraphI.nbr_of_ok hl]
  · have e1 : panicG.toI.edges = [(5, 1), (2, 1), (1, 0), (3, 2), (3, 5), (2, 0), (0, 5), (4, 2)] := by decide +kernel
    have e2 : ([GraphOp.node 15, .node 3, .node 6, .node 0, .node 9, .node 12, .edge 3 15, .edge 6 3, .edge 3 0, .edge 6 9,
        .edge 9 15, .edge 6 0, .edge 0 15, .edge 12 6].foldl DefaultGraph.perform .new).toI.edges =
        [(3, 15), (6, 3), (3, 0), (6, 9), (9, 15), (6, 0), (0, 15), (12, 6)] := by decide +kernel
    rw [e1, e2]
    exact .cons (.inr rfl) (.cons (.inl rfl) (.cons (.inl rfl) (.cons (.inr rfl) (.cons (.inl rfl) (.cons (.inl rfl)
      (.cons (.inl rfl) (.cons (.inl rfl) .nil)))))))

end Gamma
