import Verif.Proofs.GreedyAny
/-
Property C97: `greedy` on any implementation of `Graph`.
-/
namespace Gamma
open Pairing

section
variable (g : GraphI) (hn : ∀ v, (∃ l, g.neighbors v = .ok l) ∨ ∃ e, g.neighbors v = .err e)
  (hfin : ∀ r ∈ g.nodes, ∃ L : List Nat, ∀ v, g.LeadsTo r v → v ∈ L)
include hn hfin

theorem caught_isComp (items : List (Out DefaultGraph)) (h : Components.CaughtRun g items) (c : DefaultGraph)
    (hc : .ok c ∈ items) : ∃ r ∈ g.nodes, Components.IsComp g r c := by
  obtain ⟨roots, hlen, h1, -, h3, -⟩ := C96_caught g hn hfin items h
  obtain ⟨i, hi, e⟩ := List.mem_iff_getElem.1 hc
  have hi' : i < roots.length := by omega
  have hz : (roots[i], items[i]) ∈ roots.zip items := by
    rw [List.mem_iff_getElem]
    exact ⟨i, by simp; omega, by simp⟩
  have ho := h3 _ hz
  simp only [e] at ho
  exact ⟨_, h1.subset (List.getElem_mem _), ho.isComp⟩

/-- **C97.**  On any implementation of `Graph` each node of which leads to finitely many others, `greedy` returns exactly if
`components` ends without a panic. -/
theorem C97_returns_iff : (∃ p, GreedyReturns g p) ↔ ∃ comps, Components.Run g comps := by
  obtain ⟨items, h, -⟩ := C96_caught_ends g hn hfin
  rcases C96_uncaught g hn hfin items h with ⟨comps, e, hr⟩ | ⟨comps, m, rest, N, e, -, hp⟩
  · refine ⟨fun _ => ⟨_, hr⟩, fun _ => ?_⟩
    obtain ⟨runs, h1⟩ := Components.own_all (g := g) (comps := comps) (fun c hc => by
      obtain ⟨r, -, hr⟩ := caught_isComp g hn hfin items h c (by rw [e]; exact List.mem_map.2 ⟨c, hc, rfl⟩)
      exact ⟨r, hr⟩)
    obtain ⟨p, h2, -⟩ := greedy_of_run h1 hr
    exact ⟨p, h2⟩
  · obtain ⟨runs, h1⟩ := Components.own_all (g := g) (comps := comps) (fun c hc => by
      obtain ⟨r, -, hr⟩ := caught_isComp g hn hfin items h c (by rw [e]; simp [hc])
      exact ⟨r, hr⟩)
    obtain ⟨M, hM⟩ := greedy_of_panic h1 hp
    constructor
    · rintro ⟨p, K, hK⟩
      have := hK (max K M) (by omega)
      rw [hM (max K M) (by omega)] at this; simp at this
    · rintro ⟨cs, K, hK⟩
      have h1 := hK (max K N) (by omega) (comps.length + 1)
      rw [(hp (max K N) (by omega)).2] at h1; simp at h1

/-- **C97, panics.**  If `components` yields some graphs and then panics, `greedy` panics in the same way. -/
theorem C97_panics (comps : List DefaultGraph) (m : String) (rest : List (Out DefaultGraph))
    (h : Components.CaughtRun g (comps.map .ok ++ .panic m :: rest)) : ∃ N, ∀ fuel, N ≤ fuel → greedy g fuel = .panic m := by
  obtain ⟨runs, h1⟩ := Components.own_all (g := g) (comps := comps) (fun c hc => by
    obtain ⟨r, -, hr⟩ := caught_isComp g hn hfin _ h c (by simp [hc])
    exact ⟨r, hr⟩)
  obtain ⟨N, hN⟩ := h
  refine greedy_of_panic (M := N) h1 (fun fuel hf => ?_)
  have h1 := hN fuel hf (comps.length + 1)
  have h2 := calls_panic_of_caught (Components.next_eq_left g fuel) (comps.map some) m (Components.new g) (by
    rw [List.length_map, h1]
    have e1 : List.take (comps.length + 1) (comps.map Out.ok ++ Out.panic m :: rest) = comps.map Out.ok ++ [Out.panic m] := by
      rw [List.take_append]; simp
    rw [e1]
    simp [Function.comp_def])
  simpa using h2

/-- **C97, what is paired.**  Traverse the graphs `components` yields, in order, each depth-first from its first node.  Of the steps,
one after the other, `greedy` takes those that come first. -/
theorem C97_first_come (p : Pairing) (hp : GreedyReturns g p) (comps : List DefaultGraph) (hc : Components.Run g comps) :
    ∃ runs, List.Forall₂ OwnRun comps runs ∧ ∃ taken, FirstCome runs.flatten taken ∧
      ∀ u v, p.mate u = .ok v ↔
        ∃ i s, runs.flatten[i]? = some s ∧ taken i ∧ ((s.sid = u ∧ s.tid = v) ∨ (s.sid = v ∧ s.tid = u)) := by
  have h := (C94_no_panic g comps).1 hc
  obtain ⟨runs, h1⟩ := Components.own_all (g := g) (comps := comps) (fun c hc => by
    obtain ⟨r, -, hr⟩ := caught_isComp g hn hfin _ h c (List.mem_map.2 ⟨c, hc, rfl⟩)
    exact ⟨r, hr⟩)
  obtain ⟨q, h2, -, K, h3, h4⟩ := greedy_of_run h1 hc
  obtain rfl := hp.unique h2
  exact ⟨runs, h1, K, h3, h4⟩

/-- **C97, a pairing of neighbors.**  What `greedy` returns is a symmetric pairing, each two nodes it pairs are different and one is listed
as a neighbor by the other, and some node of `nodes()` leads to both. -/
theorem C97_pairs (p : Pairing) (hp : GreedyReturns g p) : p.Symmetric ∧ ∀ x y, p.mate x = .ok y →
    x ≠ y ∧ (g.Adj x y ∨ g.Adj y x) ∧ ∃ r ∈ g.nodes, g.LeadsTo r x ∧ g.LeadsTo r y := by
  obtain ⟨comps, hc⟩ := (C97_returns_iff g hn hfin).1 ⟨p, hp⟩
  have h := (C94_no_panic g comps).1 hc
  obtain ⟨runs, h1⟩ := Components.own_all (g := g) (comps := comps) (fun c hc => by
    obtain ⟨r, -, hr⟩ := caught_isComp g hn hfin _ h c (List.mem_map.2 ⟨c, hc, rfl⟩)
    exact ⟨r, hr⟩)
  obtain ⟨q, h2, hsym, K, h3, h4⟩ := greedy_of_run h1 hc
  obtain rfl := hp.unique h2
  refine ⟨hsym, fun x y hxy => ⟨hsym.ne (mate_eq_ok.1 hxy), ?_⟩⟩
  obtain ⟨i, s, hs, -, he⟩ := (h4 x y).1 hxy
  have hs := List.mem_of_getElem? hs
  -- the component the step is in
  have key : ∀ (comps : List DefaultGraph) (runs : List (List Step)), List.Forall₂ OwnRun comps runs → s ∈ runs.flatten →
      ∃ c ∈ comps, ∃ st, OwnRun c st ∧ s ∈ st := by
    intro comps runs h
    induction h with
    | nil => intro h; simp at h
    | @cons c st comps runs a _ ih =>
      intro h
      rw [List.flatten_cons, List.mem_append] at h
      rcases h with h | h
      · exact ⟨c, by simp, st, a, h⟩
      · obtain ⟨c', hc', rest⟩ := ih h
        exact ⟨c', by simp [hc'], rest⟩
  obtain ⟨c, hcm, st, ⟨r', hr', hrun'⟩, hst⟩ := key comps runs h1 hs
  obtain ⟨r, hrn, hI⟩ := caught_isComp g hn hfin _ h c (List.mem_map.2 ⟨c, hcm, rfl⟩)
  obtain ⟨-, d, d', -, -, -, inv, -⟩ := hrun'.inv hI.lawful
  have hadj := inv.step_adj s hst
  rw [Components.adj_iff_edges hI.built] at hadj
  obtain ⟨gst, hrun, e1, e2⟩ := hI.run
  obtain ⟨_, _, -, -, hW, -⟩ := hrun.winv
  have edge : ∀ a b, (a, b) ∈ c.edges → g.Adj a b ∧ g.LeadsTo r a ∧ g.LeadsTo r b := by
    intro a b hab
    rw [e2] at hab
    obtain ⟨t, ht, e⟩ := List.mem_map.1 hab
    simp [Step.pair] at e
    obtain ⟨rfl, rfl⟩ := e
    have hl := hW.leadsTo _ (hW.truth.sid_mem ht)
    exact ⟨hW.step_adj t ht, hl, hl.tail (hW.step_adj t ht)⟩
  have both : (g.Adj s.sid s.tid ∨ g.Adj s.tid s.sid) ∧ g.LeadsTo r s.sid ∧ g.LeadsTo r s.tid := by
    rcases hadj with hab | hab
    · obtain ⟨a1, a2, a3⟩ := edge _ _ hab; exact ⟨.inl a1, a2, a3⟩
    · obtain ⟨a1, a2, a3⟩ := edge _ _ hab; exact ⟨.inr a1, a3, a2⟩
  rcases he with ⟨rfl, rfl⟩ | ⟨rfl, rfl⟩
  · exact ⟨both.1, r, hrn, both.2.1, both.2.2⟩
  · exact ⟨both.1.symm, r, hrn, both.2.2, both.2.1⟩

/-- **C97, returns.**  If every node to which `nodes()` leads answers, and lists no neighbor twice, `greedy` returns. -/
theorem C97_returns (hok : ∀ r ∈ g.nodes, ∀ v, g.LeadsTo r v → ∃ l, g.neighbors v = .ok l ∧ l.Nodup) :
    ∃! p, GreedyReturns g p := by
  obtain ⟨comps, hc, -⟩ := C96_ends g hn hfin hok
  obtain ⟨p, hp⟩ := (C97_returns_iff g hn hfin).2 ⟨_, hc⟩
  exact ⟨p, hp, fun q hq => hq.unique hp⟩

end

/-- 0 lists 5, which is not among `nodes()`; 5 lists 6 and 6 lists 5 and 1; 1 lists none. -/
def strayG : GraphI := { oneWay [(0, [5]), (5, [6]), (6, [5, 1]), (1, [])] with nodes := [1, 0, 1] }

/-- On this graph `greedy` pairs nodes that are not among `nodes()`; and on `wildG` it panics. -/
theorem C97_example : (∀ v, (∃ l, strayG.neighbors v = .ok l) ∨ ∃ e, strayG.neighbors v = .err e) ∧
    (∀ r ∈ strayG.nodes, ∃ L : List Nat, ∀ v, strayG.LeadsTo r v → v ∈ L) ∧
    (∀ r ∈ strayG.nodes, ∀ v, strayG.LeadsTo r v → ∃ l, strayG.neighbors v = .ok l ∧ l.Nodup) ∧
    GreedyReturns strayG ((Pairing.new.pair 0 5).pair 6 1) ∧
    ∃ N, ∀ fuel, N ≤ fuel → greedy wildG fuel = .panic "traversal error" := by
  have hl : ∀ r ∈ strayG.nodes, ∀ v, strayG.LeadsTo r v → v ∈ [0, 1, 5, 6] := by
    intro r hr v hv
    refine oneWay_leadsTo [0, 1, 5, 6] ?_ (by decide +kernel) v hv
    have : ∀ r ∈ strayG.nodes, r ∈ [0, 1, 5, 6] := by decide +kernel
    exact this r hr
  refine ⟨?_, fun r hr => ⟨_, hl r hr⟩, ?_, greedyReturns_of (N := 12) (by decide +kernel), ?_⟩
  · intro v
    unfold strayG oneWay
    simp only
    split
    · exact .inl ⟨_, rfl⟩
    · exact .inr ⟨_, rfl⟩
  · intro r hr v hv
    have := hl r hr v hv
    simp only [List.mem_cons, List.not_mem_nil, or_false] at this
    rcases this with rfl | rfl | rfl | rfl
    · exact ⟨[5], rfl, by decide⟩
    · exact ⟨[], rfl, by decide⟩
    · exact ⟨[6], rfl, by decide⟩
    · exact ⟨[5, 1], rfl, by decide⟩
  · obtain ⟨h1, h2, c, c', h3, -⟩ := C96_example
    exact C97_panics wildG h1 h2 [] "traversal error" _ h3

end Gamma
