import Verif.Proofs.Components
import Verif.Proofs.Pairing
/-
`greedy`.
-/
namespace Gamma
open Pairing

/-- The state of `greedy`: a matching of `g` whose nodes have all been seen. -/
structure GreedyInv (g : GraphI) (s : List Nat × Pairing) : Prop where
  sym : s.2.Symmetric
  adj : ∀ x y, s.2.get x = some y → g.Adj x y
  seen : ∀ x y, s.2.get x = some y → x ∈ s.1

theorem get_pair_fresh {p : Pairing} (h : p.Symmetric) {s t : Nat} (hne : s ≠ t) (hs : p.get s = none)
    (ht : p.get t = none) (x : Nat) :
    (p.pair s t).get x = if x = s then some t else if x = t then some s else p.get x := by
  rw [h.get_pair hne]
  have n1 : p.get x ≠ some s := fun e => by have := h.get_get e; rw [hs] at this; simp at this
  have n2 : p.get x ≠ some t := fun e => by have := h.get_get e; rw [ht] at this; simp at this
  simp [n1, n2]

theorem greedyStep_ok {g : GraphI} (hg : ∀ u v, g.Adj u v → g.Adj v u) {s : List Nat × Pairing} (h : GreedyInv g s) {st : Step}
    (ha : g.Adj st.sid st.tid) :
    ∃ s', greedyStep s st = .ok s' ∧ GreedyInv g s' ∧ (∀ x, s.2.hasNode x = true → s'.2.hasNode x = true) ∧
      (∀ x ∈ s'.1, x ∈ s.1 ∨ x = st.sid ∨ x = st.tid) ∧
      (st.tid ∉ s.1 → st.sid ≠ st.tid → (∀ x ∈ s.1, s.2.hasNode x = true) →
        (∀ x ∈ s'.1, s'.2.hasNode x = true) ∧ s'.2.hasNode st.sid = true) := by
  unfold greedyStep
  by_cases h1 : st.sid ∈ s.1
  · exact ⟨s, by simp [h1], h, fun x hx => hx, fun x hx => .inl hx, fun _ _ h3 => ⟨h3, h3 _ h1⟩⟩
  · by_cases h2 : st.tid ∈ st.sid :: s.1
    · refine ⟨(st.sid :: s.1, s.2), by simp only [List.contains_eq_mem, h1, h2]; simp, ?_, fun x hx => hx, ?_, ?_⟩
      · exact ⟨h.sym, h.adj, fun x y e => List.mem_cons_of_mem _ (h.seen x y e)⟩
      · intro x hx
        rcases List.mem_cons.1 hx with rfl | hx
        · exact .inr (.inl rfl)
        · exact .inl hx
      · intro h3 h4 _
        rcases List.mem_cons.1 h2 with h2 | h2
        · exact absurd h2.symm h4
        · exact absurd h2 h3
    · have hne : st.sid ≠ st.tid := by intro e; exact h2 (by simp [e])
      have ht : st.tid ∉ s.1 := fun hc => h2 (by simp [hc])
      have e1 : s.2.get st.sid = none := by
        cases e : s.2.get st.sid with
        | none => rfl
        | some y => exact absurd (h.seen _ _ e) h1
      have e2 : s.2.get st.tid = none := by
        cases e : s.2.get st.tid with
        | none => rfl
        | some y => exact absurd (h.seen _ _ e) ht
      have hget := get_pair_fresh h.sym hne e1 e2
      refine ⟨(st.tid :: st.sid :: s.1, s.2.pair st.sid st.tid), by
        simp only [List.contains_eq_mem, h1, h2]; simp, ⟨h.sym.pair hne, ?_, ?_⟩, ?_, ?_, ?_⟩
      · intro x y e
        simp only at e
        rw [hget] at e
        split at e
        · rename_i c; simp at e; subst c e; exact ha
        · split at e
          · rename_i c; simp at e; subst c e; exact hg _ _ ha
          · exact h.adj x y e
      · intro x y e
        simp only at e ⊢
        rw [hget] at e
        split at e
        · rename_i c; simp [c]
        · split at e
          · rename_i c; simp [c]
          · simp [h.seen x y e]
      · intro x hx
        obtain ⟨y, e⟩ := hasNode_iff.1 hx
        rw [hasNode_iff]
        simp only
        rw [hget]
        split
        · exact ⟨_, rfl⟩
        · split
          · exact ⟨_, rfl⟩
          · exact ⟨y, e⟩
      · intro x hx
        simp only [List.mem_cons] at hx
        rcases hx with rfl | rfl | hx
        · exact .inr (.inr rfl)
        · exact .inr (.inl rfl)
        · exact .inl hx
      · intro _ _ h3
        refine ⟨?_, ?_⟩
        · intro x hx
          simp only [List.mem_cons] at hx
          rw [hasNode_iff]
          simp only
          rw [hget]
          split
          · exact ⟨_, rfl⟩
          · split
            · exact ⟨_, rfl⟩
            · rename_i c1 c2
              exact hasNode_iff.1 (h3 x (by tauto))
        · rw [hasNode_iff]; simp only; rw [hget]; simp

theorem greedyFold_ok {g : GraphI} (hg : ∀ u v, g.Adj u v → g.Adj v u) (steps : List Step) {s : List Nat × Pairing}
    (h : GreedyInv g s) (ha : ∀ st ∈ steps, g.Adj st.sid st.tid) :
    ∃ s', steps.foldlM greedyStep s = .ok s' ∧ GreedyInv g s' ∧
      (∀ x, s.2.hasNode x = true → s'.2.hasNode x = true) := by
  induction steps generalizing s with
  | nil => exact ⟨s, rfl, h, fun x hx => hx⟩
  | cons a l ih =>
    obtain ⟨s1, e1, i1, m1, -⟩ := greedyStep_ok hg h (ha a (by simp))
    obtain ⟨s2, e2, i2, m2⟩ := ih i1 (fun st hst => ha st (by simp [hst]))
    exact ⟨s2, by rw [List.foldlM_cons, e1]; exact e2, i2, fun x hx => m2 x (m1 x hx)⟩

/-- What one step does to the nodes seen: the source is seen afterwards; a node newly seen and left unpaired is the
source, and the target had been seen; of the two ends, one is paired or had been seen. -/
theorem greedyStep_seen {g : GraphI} {s s' : List Nat × Pairing} (h : GreedyInv g s) {st : Step}
    (hne : st.sid ≠ st.tid) (e : greedyStep s st = .ok s') :
    st.sid ∈ s'.1 ∧ (∀ x ∈ s.1, x ∈ s'.1) ∧
    (∀ x ∈ s'.1, x ∉ s.1 → s'.2.hasNode x = false → x = st.sid ∧ st.tid ∈ s.1) ∧
    (s'.2.hasNode st.sid = true ∨ st.sid ∈ s.1 ∨ st.tid ∈ s.1) := by
  unfold greedyStep at e
  by_cases h1 : st.sid ∈ s.1
  · simp [h1] at e; subst e
    exact ⟨h1, fun x hx => hx, fun x hx hn => absurd hx hn, .inr (.inl h1)⟩
  · by_cases h2 : st.tid ∈ st.sid :: s.1
    · simp only [List.contains_eq_mem, h1, h2] at e
      simp at e; subst e
      have h3 : st.tid ∈ s.1 := by
        rcases List.mem_cons.1 h2 with h2 | h2
        · exact absurd h2.symm hne
        · exact h2
      refine ⟨by simp, fun x hx => by simp [hx], ?_, .inr (.inr h3)⟩
      intro x hx hn _
      rcases List.mem_cons.1 hx with rfl | hx
      · exact ⟨rfl, h3⟩
      · exact absurd hx hn
    · have ht : st.tid ∉ s.1 := fun hc => h2 (by simp [hc])
      simp only [List.contains_eq_mem, h1, h2] at e
      simp at e; subst e
      have e1 : s.2.get st.sid = none := by
        cases e : s.2.get st.sid with
        | none => rfl
        | some y => exact absurd (h.seen _ _ e) h1
      have e2 : s.2.get st.tid = none := by
        cases e : s.2.get st.tid with
        | none => rfl
        | some y => exact absurd (h.seen _ _ e) ht
      have hget := get_pair_fresh h.sym hne e1 e2
      have p1 : (s.2.pair st.sid st.tid).hasNode st.sid = true := by
        rw [hasNode_iff, hget]; simp
      have p2 : (s.2.pair st.sid st.tid).hasNode st.tid = true := by
        rw [hasNode_iff, hget]; split <;> simp
      refine ⟨by simp, fun x hx => by simp [hx], ?_, .inl p1⟩
      intro x hx hn hf
      simp only [List.mem_cons] at hx
      simp only at hf
      rcases hx with rfl | rfl | hx
      · rw [p2] at hf; simp at hf
      · rw [p1] at hf; simp at hf
      · exact absurd hx hn

/-- The steps of one traversal: an edge left uncovered has an end that was the source of an earlier cut step and is
not the root. -/
theorem greedyFold_cut {g : GraphI} (hg : g.Lawful) (root : Nat) (pre steps : List Step)
    (ht : Truthful root (pre ++ steps)) {s : List Nat × Pairing} (h : GreedyInv g s)
    (ha : ∀ st ∈ steps, g.Adj st.sid st.tid) (hl : g.Loopless)
    (old : List Nat) (hold : ∀ x ∈ discovered root (pre ++ steps), x ∉ old)
    (hs : ∀ x ∈ s.1, x ∈ old ∨ x ∈ discovered root pre) (hsrc : ∀ t ∈ pre, t.sid ∈ s.1)
    (hp : ∀ x ∈ s.1, x ∉ old → s.2.hasNode x = false → x ≠ root ∧ ∃ t ∈ pre, t.cut = true ∧ t.sid = x) :
    ∃ s', steps.foldlM greedyStep s = .ok s' ∧ GreedyInv g s' ∧
      (∀ x, s.2.hasNode x = true → s'.2.hasNode x = true) ∧
      (∀ x ∈ s'.1, x ∈ old ∨ x ∈ discovered root (pre ++ steps)) ∧
      (∀ l t l', steps = l ++ t :: l' → s'.2.hasNode t.sid = true ∨ s'.2.hasNode t.tid = true ∨
        ∃ c ∈ pre ++ l, c.cut = true ∧ c.sid ≠ root ∧ (c.sid = t.sid ∨ c.sid = t.tid)) := by
  induction steps generalizing s pre with
  | nil => exact ⟨s, rfl, h, fun x hx => hx, by simpa using hs, by simp⟩
  | cons a l ih =>
    have hta := ht pre a l rfl
    have e : pre ++ a :: l = (pre ++ [a]) ++ l := by simp
    have haa := ha a (by simp)
    have hne : a.sid ≠ a.tid := by intro e; rw [e] at haa; exact hl _ haa
    obtain ⟨s1, e1, i1, m1, n1, -⟩ := greedyStep_ok hg.adj_symm h haa
    obtain ⟨q1, q2, q3, q4⟩ := greedyStep_seen h hne e1
    have htr : Truthful root (pre ++ [a]) := by
      intro p x q e'
      exact ht p x (q ++ l) (by rw [e, e']; simp)
    have hmem : ∀ x ∈ s1.1, x ∈ old ∨ x ∈ discovered root (pre ++ [a]) := by
      intro x hx
      rcases n1 x hx with h1 | rfl | rfl
      · rcases hs x h1 with h2 | h2
        · exact .inl h2
        · exact .inr (discovered_mono h2)
      · exact .inr (htr.sid_mem (by simp))
      · exact .inr (htr.tid_mem (by simp))
    have hnold : ∀ x ∈ discovered root (pre ++ [a]), x ∉ old := fun x hx =>
      hold x (by rw [e]; exact discovered_mono hx)
    have hp1 : ∀ x ∈ s1.1, x ∉ old → s1.2.hasNode x = false →
        x ≠ root ∧ ∃ t ∈ pre ++ [a], t.cut = true ∧ t.sid = x := by
      intro x hx hxo hf
      by_cases hxs : x ∈ s.1
      · have hf0 : s.2.hasNode x = false := by
          rw [← Bool.not_eq_true]; intro hc; rw [m1 x hc] at hf; simp at hf
        obtain ⟨h1, t, h2, h3, h4⟩ := hp x hxs hxo hf0
        exact ⟨h1, t, by simp [h2], h3, h4⟩
      · obtain ⟨rfl, h2⟩ := q3 x hx hxs hf
        have h3 : a.tid ∈ discovered root pre := by
          rcases hs _ h2 with h3 | h3
          · exact absurd h3 (hnold _ (htr.tid_mem (by simp)))
          · exact h3
        have hc := hta.2.2 h3
        refine ⟨?_, a, by simp, hc, rfl⟩
        intro hr
        cases pre with
        | nil => simp [discovered] at h3; exact hne (hr.trans h3.symm)
        | cons b pre =>
          have hb : b.sid = root := DepthFirst.Truthful.first ht (post := pre ++ a :: l) (by simp)
          have := hsrc b (by simp)
          rw [hb, ← hr] at this
          exact hxs this
    obtain ⟨s2, e2, i2, m2, n2, t2⟩ := ih (pre ++ [a]) (by rw [← e]; exact ht) i1
      (fun st hst => ha st (by simp [hst])) (by rw [← e]; exact hold) hmem
      (by
        intro t htm
        rcases List.mem_append.1 htm with h1 | h1
        · exact q2 _ (hsrc t h1)
        · simp at h1; subst h1; exact q1) hp1
    refine ⟨s2, by rw [List.foldlM_cons, e1]; exact e2, i2, fun x hx => m2 x (m1 x hx), by rw [e]; exact n2, ?_⟩
    intro l1 t l2 he
    cases l1 with
    | nil =>
      simp at he
      obtain ⟨rfl, rfl⟩ := he
      have key : ∀ x, x ∈ s.1 → x ∈ discovered root (pre ++ [a]) → s2.2.hasNode x = true ∨
          ∃ c ∈ pre, c.cut = true ∧ c.sid ≠ root ∧ c.sid = x := by
        intro x hx hxd
        by_cases hf : s.2.hasNode x = true
        · exact .inl (m2 x (m1 x hf))
        · obtain ⟨h1, t, h2, h3, h4⟩ := hp x hx (hnold x hxd) (by simpa using hf)
          exact .inr ⟨t, h2, h3, by rw [h4]; exact h1, h4⟩
      rcases q4 with h1 | h1 | h1
      · exact .inl (m2 _ h1)
      · rcases key _ h1 (htr.sid_mem (by simp)) with h2 | ⟨c, h2, h3, h4, h5⟩
        · exact .inl h2
        · exact .inr (.inr ⟨c, by simpa using h2, h3, h4, .inl h5⟩)
      · rcases key _ h1 (htr.tid_mem (by simp)) with h2 | ⟨c, h2, h3, h4, h5⟩
        · exact .inr (.inl h2)
        · exact .inr (.inr ⟨c, by simpa using h2, h3, h4, .inr h5⟩)
    | cons b l1 =>
      simp at he
      obtain ⟨rfl, rfl⟩ := he
      have := t2 l1 t l2 rfl
      simpa using this

/-- What the loop body does on one component. -/
theorem greedyComponent_eq {g : GraphI} {root : Nat} {c : DefaultGraph}
    (h : Components.IsComp g root c) : ∃ steps, DepthFirst.Run c.toI root steps ∧
      ∀ fuel, steps.length < fuel → ∀ s, greedyComponent fuel s c = steps.foldlM greedyStep s := by
  have hl := h.lawful
  have hr : root ∈ c.toI.nodes := h.root_mem
  obtain ⟨d, steps, d', e, t, he, -⟩ := DepthFirst.run hl hr
  refine ⟨steps, ⟨d, e, endsAfter_of_trace t he⟩, ?_⟩
  intro fuel hf s
  have hh := h.head
  unfold greedyComponent
  cases hn : c.nodes with
  | nil => rw [hn] at hh; simp at hh
  | cons a l =>
    rw [hn] at hh; simp at hh; subst hh
    simp [e]
    rw [forLoop_of_trace _ t he fuel hf]

/-- A common budget for the loop bodies on a list of components. -/
theorem greedyComponent_all {g : GraphI} (rc : List (Nat × DefaultGraph))
    (h : ∀ e ∈ rc, Components.IsComp g e.1 e.2) :
    ∃ N, ∀ fuel, N ≤ fuel → ∀ e ∈ rc, ∃ steps, DepthFirst.Run e.2.toI e.1 steps ∧
      ∀ s, greedyComponent fuel s e.2 = steps.foldlM greedyStep s := by
  induction rc with
  | nil => exact ⟨0, by simp⟩
  | cons a l ih =>
    obtain ⟨N, hN⟩ := ih (fun e he => h e (by simp [he]))
    obtain ⟨st, h1, h2⟩ := greedyComponent_eq (h a (by simp))
    refine ⟨N + st.length + 1, fun fuel hf e he => ?_⟩
    rcases List.mem_cons.1 he with rfl | he
    · exact ⟨st, h1, h2 fuel (by omega)⟩
    · exact hN fuel (by omega) e he

theorem foldComponents_in {g h : GraphI} (hsym : ∀ u v, h.Adj u v → h.Adj v u) {fuel : Nat} (rc : List (Nat × DefaultGraph))
    (hc : ∀ e ∈ rc, Components.IsComp g e.1 e.2) (hadj : ∀ e ∈ rc, ∀ u v, e.2.toI.Adj u v → h.Adj u v)
    (hsteps : ∀ e ∈ rc, ∃ steps, DepthFirst.Run e.2.toI e.1 steps ∧
        ∀ s, greedyComponent fuel s e.2 = steps.foldlM greedyStep s) {s : List Nat × Pairing}
    (hs : GreedyInv h s) :
    ∃ s', (rc.map Prod.snd).foldlM (greedyComponent fuel) s = .ok s' ∧ GreedyInv h s' := by
  induction rc generalizing s with
  | nil => exact ⟨s, rfl, hs⟩
  | cons a l ih =>
    obtain ⟨steps, h1, h2⟩ := hsteps a (by simp)
    have ha := hc a (by simp)
    obtain ⟨s1, e1, i1, -⟩ := greedyFold_ok hsym steps hs (fun st hst => by
      obtain ⟨-, d, d', -, -, -, i, q⟩ := h1.inv ha.lawful
      exact hadj a (by simp) _ _ (i.step_adj st hst))
    obtain ⟨s2, e2, i2⟩ := ih (fun e he => hc e (by simp [he])) (fun e he => hadj e (by simp [he]))
      (fun e he => hsteps e (by simp [he])) i1
    refine ⟨s2, ?_, i2⟩
    rw [List.map_cons, List.foldlM_cons, h2, e1]
    exact e2

theorem foldComponents {g : GraphI} (hg : g.Lawful) {fuel : Nat} (rc : List (Nat × DefaultGraph))
    (hc : ∀ e ∈ rc, Components.IsComp g e.1 e.2)
    (h : ∀ e ∈ rc, ∃ steps, DepthFirst.Run e.2.toI e.1 steps ∧
        ∀ s, greedyComponent fuel s e.2 = steps.foldlM greedyStep s) {s : List Nat × Pairing}
    (hs : GreedyInv g s) :
    ∃ s', (rc.map Prod.snd).foldlM (greedyComponent fuel) s = .ok s' ∧ GreedyInv g s' :=
  foldComponents_in hg.adj_symm rc hc (fun e he _ _ ha => (hc e he).adj hg ha) h hs

/-- The graph in which two nodes of `g` are neighbors if one of them is listed as a neighbor of the other. -/
def GraphI.eitherWay (g : GraphI) : GraphI :=
  { g with neighbors := fun u => .ok (g.nodes.filter (fun v => (u ∈ g.nodes ∧ v ∈ g.nbr u) ∨ u ∈ g.nbr v)) }

theorem GraphI.Directed.eitherWay_adj {g : GraphI} (hg : g.Directed) {u v : Nat} :
    g.eitherWay.Adj u v ↔ (u ∈ g.nodes ∧ g.Adj u v) ∨ (v ∈ g.nodes ∧ g.Adj v u) := by
  have e : g.eitherWay.Adj u v ↔ v ∈ g.nodes ∧ ((u ∈ g.nodes ∧ v ∈ g.nbr u) ∨ u ∈ g.nbr v) := by
    constructor
    · rintro ⟨l, hl, hm⟩
      injection hl with hl
      subst hl
      simpa using hm
    · intro h
      exact ⟨_, rfl, by simpa using h⟩
  rw [e, GraphI.mem_nbr, GraphI.mem_nbr]
  constructor
  · rintro ⟨h1, h2 | h2⟩
    · exact .inl h2
    · exact .inr ⟨h1, h2⟩
  · rintro (⟨h1, h2⟩ | ⟨h1, h2⟩)
    · exact ⟨hg.adj_mem _ _ h1 h2, .inl ⟨h1, h2⟩⟩
    · exact ⟨h1, .inr h2⟩

theorem GraphI.Directed.eitherWay_symm {g : GraphI} (hg : g.Directed) (u v : Nat) (h : g.eitherWay.Adj u v) :
    g.eitherWay.Adj v u := by
  rw [hg.eitherWay_adj] at h ⊢; exact h.symm

theorem Components.IsComp.adj_dir {g : GraphI} (hg : g.Directed) {root : Nat} {c : DefaultGraph} (hr : root ∈ g.nodes)
    (h : IsComp g root c) {u v : Nat} (ha : c.toI.Adj u v) : g.eitherWay.Adj u v := by
  obtain ⟨st, hrun, e1, e2⟩ := h.run
  obtain ⟨_, _, -, -, hW, -⟩ := hrun.winv
  have key : ∀ a b, (a, b) ∈ c.edges → a ∈ g.nodes ∧ g.Adj a b := by
    intro a b hab
    rw [e2] at hab
    obtain ⟨s, hs, e⟩ := List.mem_map.1 hab
    simp [Step.pair] at e
    obtain ⟨rfl, rfl⟩ := e
    exact ⟨hg.leadsTo hr (hW.leadsTo _ (hW.truth.sid_mem hs)), hW.step_adj s hs⟩
  rw [hg.eitherWay_adj]
  rw [adj_iff_edges h.built] at ha
  exact ha.imp (key _ _) (key _ _)

theorem greedyInv_new (g : GraphI) : GreedyInv g ([], Pairing.new) :=
  ⟨symmetric_new, by simp [Pairing.new, Pairing.get], by simp [Pairing.new, Pairing.get]⟩

/-- `greedy` as a fold over the components, or a panic inside `components`. -/
theorem greedy_or {g : GraphI} (hg : g.Directed) :
    ∃ rc N, (Components.Result g rc ∧ Components.Run g (rc.map Prod.snd) ∧ ∀ fuel, N ≤ fuel →
      greedy g fuel = ((rc.map Prod.snd).foldlM (greedyComponent fuel) ([], Pairing.new) >>= fun s => .ok s.2) ∧
      ∀ e ∈ rc, ∃ steps, DepthFirst.Run e.2.toI e.1 steps ∧
        ∀ s, greedyComponent fuel s e.2 = steps.foldlM greedyStep s) ∨
    ∃ root c, Components.Inv' g rc c ∧ Components.Clash g rc root ∧ (¬ ∃ cs, Components.Run g cs) ∧
      ∀ fuel, N ≤ fuel → greedy g fuel = .panic "traversal error" := by
  obtain ⟨rc, N, c', ⟨c'', hr, h1⟩ | ⟨root, hi, hc, h1⟩⟩ := Components.run_or hg
  · obtain ⟨M, hM⟩ := greedyComponent_all rc hr.comp
    refine ⟨rc, N + M + rc.length + 1, .inl ⟨hr,
      ⟨N, fun fuel hf => endsAfter_of_trace' (h1 fuel hf).1 (h1 fuel hf).2.1 (h1 fuel hf).2.2⟩,
      fun fuel hf => ⟨?_, hM fuel (by omega)⟩⟩⟩
    obtain ⟨t, he, -⟩ := h1 fuel (by omega)
    unfold greedy
    rw [forLoop_of_trace _ t he fuel (by simp; omega)]
  · obtain ⟨M, hM⟩ := greedyComponent_all rc hi.comp
    refine ⟨rc, N + M + rc.length + 1, .inr ⟨root, c', hi, hc, ?_, fun fuel hf => ?_⟩⟩
    · rintro ⟨cs, K, hK⟩
      have a := hK (max K N) (by omega)
      obtain ⟨b1, b2⟩ := h1 (max K N) (by omega)
      have := Components.calls_panic b1 b2
      rw [a] at this; simp at this
    obtain ⟨t, he⟩ := h1 fuel (by omega)
    obtain ⟨done, hd1, hd2, -⟩ := hi.split
    obtain ⟨s, e, -⟩ := foldComponents_in hg.eitherWay_symm rc hi.comp (fun e he _ _ ha => (hi.comp e he).adj_dir hg
      (by rw [hd1]; exact List.mem_append_left _ (hd2.subset (List.mem_map.2 ⟨e, he, rfl⟩))) ha)
      (hM fuel (by omega)) (greedyInv_new g.eitherWay)
    unfold greedy
    rw [forLoop_of_trace_panic _ t he fuel (by simp; omega), e]
    rfl

/-- If `greedy` returns, it is a fold over the components. -/
theorem GreedyReturns.eq {g : GraphI} (hg : g.Lawful) {p : Pairing} (hp : GreedyReturns g p) :
    ∃ rc N, Components.Result g rc ∧ ∀ fuel, N ≤ fuel →
      greedy g fuel = ((rc.map Prod.snd).foldlM (greedyComponent fuel) ([], Pairing.new) >>= fun s => .ok s.2) ∧
      ∀ e ∈ rc, ∃ steps, DepthFirst.Run e.2.toI e.1 steps ∧
        ∀ s, greedyComponent fuel s e.2 = steps.foldlM greedyStep s := by
  obtain ⟨rc, N, ⟨h1, -, h2⟩ | ⟨root, c, -, -, -, h⟩⟩ := greedy_or hg.directed
  · exact ⟨rc, N, h1, h2⟩
  · obtain ⟨M, hp⟩ := hp
    have := hp (max M N) (by omega)
    rw [h (max M N) (by omega)] at this; simp at this

/-- Without doubly listed self-loops `greedy` is a fold over the components. -/
theorem greedy_eq {g : GraphI} (hg : g.Lawful) (hl : g.NoDoubleLoop) :
    ∃ rc N, Components.Result g rc ∧ ∀ fuel, N ≤ fuel →
      greedy g fuel = ((rc.map Prod.snd).foldlM (greedyComponent fuel) ([], Pairing.new) >>= fun s => .ok s.2) ∧
      ∀ e ∈ rc, ∃ steps, DepthFirst.Run e.2.toI e.1 steps ∧
        ∀ s, greedyComponent fuel s e.2 = steps.foldlM greedyStep s := by
  obtain ⟨rc, N, ⟨h1, -, h2⟩ | ⟨root, c, -, h, -⟩⟩ := greedy_or hg.directed
  · exact ⟨rc, N, h1, h2⟩
  · exact absurd hl (h.not_noDoubleLoop hg)

theorem matches_of {g : GraphI} {p : Pairing} (hs : p.Symmetric) (ha : ∀ x y, p.get x = some y → g.Adj x y) :
    p.Matches g := ⟨hs, fun x y e => ha x y (mate_eq_ok.1 e)⟩

/-- The two ends of a cut step lie on a cycle. -/
theorem onCycle_cut {g : GraphI} (hg : g.Lawful) (hl : g.Loopless) {root : Nat}
    {steps : List Step} (h : DepthFirst.Run g root steps) {c : Step} (hc : c ∈ steps) (hcut : c.cut = true) :
    OnCycle g c.sid := by
  obtain ⟨-, d, d', -, -, -, i, q⟩ := h.inv hg
  have hadj := i.step_adj c hc
  have hne : c.sid ≠ c.tid := by intro e; rw [e] at hadj; exact hl _ hadj
  refine DepthFirst.onCycle_of_reachable ((hg.simple_adj).2 ⟨hne, hadj⟩) ?_
  have key := i.truth.reachable_in (g.simple \ SimpleGraph.fromEdgeSet {s(c.sid, c.tid)}) (by
    intro s hs hsc
    rw [SimpleGraph.sdiff_adj]
    refine ⟨(hg.simple_adj).2 ⟨i.truth.ne hs hsc, i.step_adj s hs⟩, ?_⟩
    rw [SimpleGraph.fromEdgeSet_adj]
    rintro ⟨h1, -⟩
    have h1 : s(s.sid, s.tid) = s(c.sid, c.tid) := by simpa using h1
    rw [Sym2.eq_iff] at h1
    have hsc' : s ≠ c := by rintro rfl; rw [hcut] at hsc; simp at hsc
    have := DepthFirst.two_le_joinCount (u := c.sid) (v := c.tid) hs hc hsc' h1 (.inl ⟨rfl, rfl⟩)
    have := i.join_once hne
    omega)
  exact (key _ (i.truth.sid_mem hc)).symm.trans (key _ (i.truth.tid_mem hc))

theorem two_le_joinCount_split {u v : Nat} {l l' : List Step} {c t : Step} (hc : c ∈ l)
    (h1 : (c.sid = u ∧ c.tid = v) ∨ (c.sid = v ∧ c.tid = u)) (h2 : (t.sid = u ∧ t.tid = v) ∨ (t.sid = v ∧ t.tid = u)) :
    2 ≤ joinCount u v (l ++ t :: l') := by
  unfold joinCount
  rw [List.countP_append, List.countP_cons, if_pos (by simpa using h2)]
  have : 0 < l.countP (fun s => decide ((s.sid = u ∧ s.tid = v) ∨ (s.sid = v ∧ s.tid = u))) :=
    List.countP_pos_iff.2 ⟨c, hc, by simpa using h1⟩
  omega

/-- A cut step before a step from or to the same node (not the root): the node has three neighbors and lies on a
cycle. -/
theorem heavy_of_cut {g : GraphI} (hg : g.Lawful) (hl : g.Loopless) {root : Nat} {l l' : List Step} {t c : Step}
    (h : DepthFirst.Run g root (l ++ t :: l')) (hc : c ∈ l) (hcut : c.cut = true) (hr : c.sid ≠ root)
    (hx : c.sid = t.sid ∨ c.sid = t.tid) : OnCycle g c.sid ∧ Deg3 g c.sid := by
  have hcm : c ∈ l ++ t :: l' := by simp [hc]
  refine ⟨onCycle_cut hg hl h hcm hcut, ?_⟩
  obtain ⟨-, d, d', -, -, -, i, q⟩ := h.inv hg
  have hnl : ∀ s ∈ l ++ t :: l', s.sid ≠ s.tid := by
    intro s hs e
    have := i.step_adj s hs
    rw [e] at this; exact hl _ this
  have htr : Truthful root l := by
    intro p x q e'
    exact i.truth p x (q ++ t :: l') (by rw [e']; simp)
  -- the discovery of the node
  obtain ⟨s0, hs0, hs1, hs2⟩ : ∃ s0 ∈ l, s0.cut = false ∧ s0.tid = c.sid := by
    rcases mem_discovered.1 (htr.sid_mem hc) with h1 | h1
    · exact absurd h1 hr
    · exact h1
  have hs0m : s0 ∈ l ++ t :: l' := by simp [hs0]
  have hsc : s0 ≠ c := by rintro rfl; rw [hcut] at hs1; simp at hs1
  have hn0 := hnl s0 hs0m
  have hnc := hnl c hcm
  have hnt := hnl t (by simp)
  have a0 : g.simple.Adj c.sid s0.sid :=
    (hg.simple_adj).2 ⟨by rw [← hs2]; exact Ne.symm hn0, by
      have := i.step_adj s0 hs0m; rw [hs2] at this; exact hg.adj_symm _ _ this⟩
  have a1 : g.simple.Adj c.sid c.tid := (hg.simple_adj).2 ⟨hnc, i.step_adj c hcm⟩
  have d1 : s0.sid ≠ c.tid := by
    intro e
    have := DepthFirst.two_le_joinCount (u := c.sid) (v := c.tid) hs0m hcm hsc (.inr ⟨e, hs2⟩) (.inl ⟨rfl, rfl⟩)
    have := i.join_once hnc
    omega
  rcases hx with hx | hx
  · have d2 : s0.sid ≠ t.tid := by
      intro e
      have := two_le_joinCount_split (u := t.sid) (v := t.tid) (t := t) (l' := l') hs0
        (.inr ⟨e, hs2.trans hx⟩) (.inl ⟨rfl, rfl⟩)
      have := i.join_once hnt
      omega
    have d3 : c.tid ≠ t.tid := by
      intro e
      have := two_le_joinCount_split (u := t.sid) (v := t.tid) (t := t) (l' := l') hc
        (.inl ⟨hx, e⟩) (.inl ⟨rfl, rfl⟩)
      have := i.join_once hnt
      omega
    exact ⟨_, _, _, d1, d2, d3, a0, a1, (hg.simple_adj).2 ⟨by rw [hx]; exact hnt, by
      rw [hx]; exact i.step_adj t (by simp)⟩⟩
  · have d2 : s0.sid ≠ t.sid := by
      intro e
      have := two_le_joinCount_split (u := t.sid) (v := t.tid) (t := t) (l' := l') hs0
        (.inl ⟨e, hs2.trans hx⟩) (.inl ⟨rfl, rfl⟩)
      have := i.join_once hnt
      omega
    have d3 : c.tid ≠ t.sid := by
      intro e
      have := two_le_joinCount_split (u := t.sid) (v := t.tid) (t := t) (l' := l') hc
        (.inr ⟨hx, e⟩) (.inl ⟨rfl, rfl⟩)
      have := i.join_once hnt
      omega
    exact ⟨_, _, _, d1, d2, d3, a0, a1, (hg.simple_adj).2 ⟨by rw [hx]; exact Ne.symm hnt, by
      rw [hx]; exact hg.adj_symm _ _ (i.step_adj t (by simp))⟩⟩

theorem foldComponents_tame {g : GraphI} (hg : g.Lawful) (hl : g.Loopless)
    {fuel : Nat} (rc : List (Nat × DefaultGraph))
    (hc : ∀ e ∈ rc, Components.IsComp g e.1 e.2) (htame : ∀ e ∈ rc, DepthFirst.Tame g e.1)
    (hd : rc.Pairwise (fun a b => ∀ x ∈ a.2.nodes, x ∉ b.2.nodes))
    (h : ∀ e ∈ rc, ∃ steps, DepthFirst.Run e.2.toI e.1 steps ∧
        ∀ s, greedyComponent fuel s e.2 = steps.foldlM greedyStep s) {s : List Nat × Pairing}
    (hs : GreedyInv g s) (old : List Nat) (hold : ∀ x ∈ s.1, x ∈ old)
    (hdisj : ∀ e ∈ rc, ∀ x ∈ e.2.nodes, x ∉ old) :
    ∃ s', (rc.map Prod.snd).foldlM (greedyComponent fuel) s = .ok s' ∧ GreedyInv g s' ∧
      (∀ x, s.2.hasNode x = true → s'.2.hasNode x = true) ∧
      (∀ e ∈ rc, ∀ u v, e.2.toI.Adj u v → s'.2.hasNode u = true ∨ s'.2.hasNode v = true ∨
        (OnCycle g u ∧ Deg3 g u) ∨ (OnCycle g v ∧ Deg3 g v)) := by
  induction rc generalizing s old with
  | nil => exact ⟨s, rfl, hs, fun x hx => hx, by simp⟩
  | cons a l ih =>
    obtain ⟨steps, h1, h2⟩ := h a (by simp)
    have ha := hc a (by simp)
    rw [List.pairwise_cons] at hd
    have hcl : a.2.toI.Loopless := fun v hv => hl v (ha.adj hg hv)
    have hle := ha.simple_le hg
    have hcomp := Components.complete_tame ha.lawful (ha.tame hg (htame a (by simp)))
    obtain ⟨-, d, d', -, -, -, i, q⟩ := h1.inv ha.lawful
    have hdn : ∀ x ∈ discovered a.1 steps, x ∈ a.2.nodes := by
      intro x hx
      rw [mem_discovered] at hx
      rcases hx with rfl | ⟨st, hst, -, rfl⟩
      · exact ha.root_mem
      · exact ha.lawful.adj_mem _ _ (i.step_adj st hst)
    obtain ⟨s1, e1, i1, m1, n1, t1⟩ := greedyFold_cut hg a.1 [] steps (by simpa using i.truth) hs
      (fun st hst => ha.adj hg (i.step_adj st hst)) hl old
      (fun x hx => hdisj a (by simp) x (hdn x (by simpa using hx))) (fun x hx => .inl (hold x hx)) (by simp)
      (fun x hx hxo => absurd (hold x hx) hxo)
    obtain ⟨s2, e2, i2, m2, t2⟩ := ih (fun e he => hc e (by simp [he])) (fun e he => htame e (by simp [he])) hd.2
      (fun e he => h e (by simp [he])) i1 (old ++ a.2.nodes)
      (by
        intro x hx
        rw [List.mem_append]
        rcases n1 x hx with h3 | h3
        · exact .inl h3
        · exact .inr (hdn x (by simpa using h3)))
      (by
        intro e he x hx
        rw [List.mem_append, not_or]
        exact ⟨hdisj e (by simp [he]) x hx, fun hc => hd.1 e he x hc hx⟩)
    refine ⟨s2, ?_, i2, fun x hx => m2 x (m1 x hx), ?_⟩
    · rw [List.map_cons, List.foldlM_cons, h2, e1]; exact e2
    · intro e he u v hadj
      rcases List.mem_cons.1 he with rfl | he
      · have hne : u ≠ v := by rintro rfl; exact hcl u hadj
        have hu := ha.lawful.adj_src hadj
        have hv := ha.lawful.adj_mem _ _ hadj
        have hu' := hcomp.nodes _ h1 u (ha.connected hg hu)
        have hv' := hcomp.nodes _ h1 v (ha.connected hg hv)
        have lift : ∀ x, OnCycle e.2.toI x ∧ Deg3 e.2.toI x → OnCycle g x ∧ Deg3 g x := by
          rintro x ⟨⟨w, hw⟩, b1, b2, b3, n1, n2, n3, h4, h5, h6⟩
          exact ⟨⟨w.mapLe hle, (SimpleGraph.Walk.mapLe_isCycle hle).2 hw⟩,
            b1, b2, b3, n1, n2, n3, hle h4, hle h5, hle h6⟩
        have key : ∀ st ∈ steps, s2.2.hasNode st.sid = true ∨ s2.2.hasNode st.tid = true ∨
            (OnCycle g st.sid ∧ Deg3 g st.sid) ∨ (OnCycle g st.tid ∧ Deg3 g st.tid) := by
          intro st hst
          obtain ⟨l1, l2, rfl⟩ := List.append_of_mem hst
          rcases t1 l1 st l2 rfl with h3 | h3 | ⟨c, h3, h4, h5, h6⟩
          · exact .inl (m2 _ h3)
          · exact .inr (.inl (m2 _ h3))
          · have := lift _ (heavy_of_cut ha.lawful hcl h1 (by simpa using h3) h4 h5 h6)
            rcases h6 with h6 | h6 <;> rw [h6] at this
            · exact .inr (.inr (.inl this))
            · exact .inr (.inr (.inr this))
        rcases hcomp.edges _ h1 u hu' v hv' hne hadj with h3 | h3
        · obtain ⟨st, hst, e⟩ := List.mem_map.1 h3
          simp [Step.pair] at e
          have := key st hst
          rw [e.1, e.2] at this
          exact this
        · obtain ⟨st, hst, e⟩ := List.mem_map.1 h3
          simp [Step.pair] at e
          have := key st hst
          rw [e.1, e.2] at this
          tauto
      · exact t2 e he u v hadj

end Gamma
