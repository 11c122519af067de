import Verif.Proofs.GreedyExact
import Verif.Props.AnyGraph
import Verif.Props.Matching
/-
Property C78: what `greedy` pairs, exactly.
-/
namespace Gamma
open Pairing

/-- **C78, first come, first served.**  Traverse the components of `g`, in order, each depth-first from its first node, and put the
steps one after the other.  `greedy` pairs exactly the ends of the steps taken first come, first served (`FirstCome`): a step is taken
if its ends differ, neither has been the source of an earlier step (taken or not), and neither the target of one taken.  This holds for
every implementation of `Graph` whose neighbors are nodes. -/
theorem C78_first_come (g : GraphI) (hg : g.Directed) (p : Pairing) (hp : GreedyReturns g p) (comps : List DefaultGraph)
    (hc : Components.Run g comps) :
    ∃ runs, List.Forall₂ OwnRun comps runs ∧ ∃ taken, FirstCome runs.flatten taken ∧
      ∀ u v, p.mate u = .ok v ↔
        ∃ i s, runs.flatten[i]? = some s ∧ taken i ∧ ((s.sid = u ∧ s.tid = v) ∨ (s.sid = v ∧ s.tid = u)) := by
  obtain ⟨rc, hr, rfl⟩ := Components.run_iff hg hc
  have hex : ∀ rc : List (Nat × DefaultGraph), (∀ e ∈ rc, Components.IsComp g e.1 e.2) →
      ∃ runs, List.Forall₂ OwnRun (rc.map Prod.snd) runs := by
    intro rc
    induction rc with
    | nil => exact fun _ => ⟨[], .nil⟩
    | cons a l ih =>
      intro h
      obtain ⟨runs, h1⟩ := ih (fun e he => h e (by simp [he]))
      have ha := h a (by simp)
      obtain ⟨d, steps, d', e, t, he, -⟩ := DepthFirst.run ha.lawful ha.root_mem
      exact ⟨steps :: runs, .cons ⟨a.1, ha.head, d, e, endsAfter_of_trace t he⟩ h1⟩
  obtain ⟨runs, hruns⟩ := hex rc hr.comp
  obtain ⟨s, e, rfl⟩ := greedy_flatten hg hp hc hruns
  obtain ⟨s', K, e', -, hK, -, hget⟩ := greedyFold_exact runs.flatten
  rw [e] at e'; injection e' with e'; subst e'
  exact ⟨runs, hruns, K, hK, fun u v => by rw [mate_eq_ok]; exact hget u v⟩

/-- The traversals in C78, and which steps are taken, are determined. -/
theorem C78_determined (comps : List DefaultGraph) (runs runs' : List (List Step)) (h : List.Forall₂ OwnRun comps runs)
    (h' : List.Forall₂ OwnRun comps runs') (taken taken' : Nat → Prop) (ht : FirstCome runs.flatten taken)
    (ht' : FirstCome runs'.flatten taken') :
    runs = runs' ∧ ∀ i s, runs.flatten[i]? = some s → (taken i ↔ taken' i) := by
  have e : runs = runs' := by
    clear ht ht'
    induction h generalizing runs' with
    | nil => cases h'; rfl
    | cons a _ ih =>
      cases h' with
      | cons b hb => rw [a.unique b, ih _ hb]
  subst e
  exact ⟨rfl, fun i s hs => ht.unique ht' i (List.getElem?_eq_some_iff.1 hs).1⟩

theorem List.forall₂_split {α β : Type} {R : α → β → Prop} {l l' : List α} {r : List β} (h : List.Forall₂ R (l ++ l') r) :
    ∃ r1 r2, List.Forall₂ R l r1 ∧ List.Forall₂ R l' r2 ∧ r = r1 ++ r2 := by
  induction l generalizing r with
  | nil => exact ⟨[], r, .nil, h, rfl⟩
  | cons a l ih =>
    cases h with
    | cons x hx =>
      obtain ⟨r1, r2, h1, h2, rfl⟩ := ih hx
      exact ⟨_ :: r1, r2, .cons x h1, h2, rfl⟩

/-- **C78, down the tree.**  If no other component has nodes of the component `c`, and `steps` is the depth-first traversal of `c` from
its first node, then `greedy` pairs a node of `c` only along a step that discovers one of the two; and a node takes the node it
discovers, exactly if this is the first of all steps from it, and it was not taken by the node that discovered it. -/
theorem C78_down_the_tree (g : GraphI) (hg : g.Directed) (p : Pairing) (hp : GreedyReturns g p) (before after : List DefaultGraph)
    (c : DefaultGraph) (hc : Components.Run g (before ++ c :: after))
    (hd : ∀ c' ∈ before ++ after, ∀ x ∈ c.nodes, x ∉ c'.nodes) (steps : List Step) (hs : OwnRun c steps) :
    (∀ u ∈ c.nodes, ∀ v, p.mate u = .ok v → ⟨u, v, false⟩ ∈ steps ∨ ⟨v, u, false⟩ ∈ steps) ∧
    (∀ u v, ⟨u, v, false⟩ ∈ steps →
      (p.mate u = .ok v ↔ steps.find? (fun s => s.sid == u) = some ⟨u, v, false⟩ ∧
        ∀ w, ⟨w, u, false⟩ ∈ steps → p.mate w ≠ .ok u)) ∧
    ∀ u ∈ c.nodes, (p.hasNode u = false ↔ (∀ w, ⟨w, u, false⟩ ∈ steps → p.mate w ≠ .ok u) ∧
      ∀ s, steps.find? (fun s => s.sid == u) = some s → s.cut = true) := by
  obtain ⟨runs, h1, K, hK, hm⟩ := C78_first_come g hg p hp _ hc
  obtain ⟨rc, hr, e⟩ := Components.run_iff hg hc
  have hlaw : ∀ c' ∈ before ++ c :: after, c'.toI.Lawful := by
    intro c' h
    rw [e] at h
    obtain ⟨x, hx, rfl⟩ := List.mem_map.1 h
    exact (hr.comp x hx).lawful
  obtain ⟨R1, R2, h2, h3, rfl⟩ : ∃ R1 R2, List.Forall₂ OwnRun before R1 ∧ List.Forall₂ OwnRun (c :: after) R2 ∧ runs = R1 ++ R2 :=
    List.forall₂_split h1
  cases h3 with
  | @cons _ st _ R2 h4 h5 =>
  have := h4.unique hs
  subst this
  have avoid : ∀ (cs : List DefaultGraph) (R : List (List Step)), List.Forall₂ OwnRun cs R → (∀ c' ∈ cs, c'.toI.Lawful) →
      (∀ c' ∈ cs, ∀ x ∈ c.nodes, x ∉ c'.nodes) → ∀ s ∈ R.flatten, s.sid ∉ c.nodes ∧ s.tid ∉ c.nodes := by
    intro cs R h
    induction h with
    | nil => simp
    | @cons c' r cs R a _ ih =>
      intro hl hx s hsm
      rw [List.flatten_cons, List.mem_append] at hsm
      rcases hsm with hsm | hsm
      · have := a.mem (hl c' (by simp)) hsm
        exact ⟨fun h => hx c' (by simp) _ h this.1, fun h => hx c' (by simp) _ h this.2⟩
      · exact ih (fun c'' h => hl c'' (by simp [h])) (fun c'' h => hx c'' (by simp [h])) s hsm
  have hP := avoid before R1 h2 (fun c' h => hlaw c' (by simp [h])) (fun c' h => hd c' (by simp [h]))
  have hQ := avoid after R2 h5 (fun c' h => hlaw c' (by simp [h])) (fun c' h => hd c' (by simp [h]))
  have hfl : (R1 ++ st :: R2).flatten = R1.flatten ++ st ++ R2.flatten := by simp
  rw [hfl] at hK hm
  obtain ⟨k1, k2⟩ := greedy_part (m := fun u v => p.mate u = .ok v) hK (hlaw c (by simp)) h4 hP hQ hm
  have symm : ∀ u v, p.mate u = .ok v → p.mate v = .ok u := by
    intro u v h
    rw [hm] at h ⊢
    obtain ⟨i, s, a1, a2, a3⟩ := h
    exact ⟨i, s, a1, a2, a3.symm⟩
  refine ⟨k1, k2, fun u hu => ?_⟩
  have hn : p.hasNode u = false ↔ ∀ v, p.mate u ≠ .ok v := by
    rw [← Bool.not_eq_true, hasNode_iff]
    simp only [ne_eq, mate_eq_ok, not_exists]
  rw [hn]
  constructor
  · intro h
    refine ⟨fun w hw hc' => h w (symm _ _ hc'), fun s hs' => ?_⟩
    by_contra hcut
    have h6 := List.mem_of_find?_eq_some hs'
    have h7 := List.find?_some hs'
    obtain ⟨a, b, f⟩ := s
    simp only [beq_iff_eq] at h7 hcut
    subst h7
    have hf : f = false := by simpa using hcut
    subst hf
    exact h b ((k2 a b h6).2 ⟨hs', fun w hw hc' => h w (symm _ _ hc')⟩)
  · rintro ⟨h6, h7⟩ v hv
    rcases k1 u hu v hv with h8 | h8
    · have := h7 _ ((k2 u v h8).1 hv).1
      simp at this
    · exact h6 v h8 (symm _ _ hv)

/-- Two components that share no node: a triangle with a tail, and an edge.  The tail's node 2 has a step back to 0 before it
discovers 3, so that 2 and 3 stay alone. -/
def twoPartsG : DefaultGraph := graphOf [(0, 1), (1, 2), (2, 0), (2, 3), (5, 4)]

example : ∃ c c' : DefaultGraph, twoPartsG.toI.Directed ∧
    GreedyReturns twoPartsG.toI (pairingOf [(0, 1), (5, 4)]) ∧ Components.Run twoPartsG.toI ([] ++ c :: [c']) ∧
    (∀ x ∈ c.nodes, x ∉ c'.nodes) ∧ OwnRun c [⟨0, 1, false⟩, ⟨1, 2, false⟩, ⟨2, 0, true⟩, ⟨2, 3, false⟩] ∧
    (pairingOf [(0, 1), (5, 4)]).mate 0 = .ok 1 ∧ (pairingOf [(0, 1), (5, 4)]).hasNode 2 = false :=
  ⟨⟨[(3, 3), (2, 2), (1, 1), (0, 0)], [[1, 2], [0, 2], [1, 0, 3], [2]], [0, 1, 2, 3], [(0, 1), (1, 2), (2, 0), (2, 3)]⟩,
   ⟨[(4, 1), (5, 0)], [[4], [5]], [5, 4], [(5, 4)]⟩,
    (graphOf_lawful _).directed, greedyReturns_of (N := 20) (by decide +kernel),
    Components.run_of_all (N := 20) (by decide +kernel), by decide,
    ⟨0, by decide, DepthFirst.run_of_collect (fuel := 10) (by decide +kernel)⟩, by decide, by decide⟩

end Gamma
