import Verif.Props.AnyComponents
import Verif.Proofs.GreedyExact
/-
`greedy` on any implementation of `Graph`.
-/
namespace Gamma
open Pairing

section
variable {σ α β : Type} {next : σ → Out (Option α × σ)}

theorem forLoop_of_calls (body : β → α → Out β) {s : σ} {l : List α}
    (h : calls next (l.length + 1) s = .ok (l.map some ++ [none])) (fuel : Nat) (hf : l.length < fuel) (b : β) :
    forLoop next body fuel s b = l.foldlM body b := by
  induction l generalizing s fuel b with
  | nil =>
    obtain ⟨n, rfl⟩ : ∃ n, fuel = n + 1 := ⟨fuel - 1, by simp at hf; omega⟩
    simp only [calls, List.length_nil, List.map_nil, List.nil_append] at h
    cases e : next s with
    | ok r =>
      rw [e] at h
      simp at h
      obtain ⟨r1, r2⟩ := r
      simp only at h; subst h
      simp [forLoop, e]
    | err _ => rw [e] at h; simp at h
    | panic _ => rw [e] at h; simp at h
    | timeout => rw [e] at h; simp at h
  | cons a l ih =>
    obtain ⟨n, rfl⟩ : ∃ n, fuel = n + 1 := ⟨fuel - 1, by simp at hf; omega⟩
    simp only [List.length_cons] at hf
    rw [List.length_cons, calls] at h
    cases e : next s with
    | ok r =>
      obtain ⟨r1, r2⟩ := r
      rw [e, Out.ok_bind] at h
      simp only at h
      cases e2 : calls next (l.length + 1) r2 with
      | ok os =>
        rw [e2] at h
        simp only [Out.ok_bind, List.map_cons, List.cons_append, Out.ok.injEq, List.cons.injEq] at h
        obtain ⟨rfl, rfl⟩ := h
        rw [List.foldlM_cons]
        simp only [forLoop, e, Out.ok_bind]
        congr 1
        funext b'
        exact ih e2 n (by omega) b'
      | err _ => rw [e2] at h; simp at h
      | panic _ => rw [e2] at h; simp at h
      | timeout => rw [e2] at h; simp at h
    | err _ => rw [e] at h; simp at h
    | panic _ => rw [e] at h; simp at h
    | timeout => rw [e] at h; simp at h

theorem forLoop_of_calls_panic (body : β → α → Out β) {s : σ} {l : List α} {m : String}
    (h : calls next l.length s = .ok (l.map some)) (h' : calls next (l.length + 1) s = .panic m) (fuel : Nat)
    (hf : l.length < fuel) (b : β) :
    forLoop next body fuel s b = (l.foldlM body b >>= fun _ => .panic m) := by
  induction l generalizing s fuel b with
  | nil =>
    obtain ⟨n, rfl⟩ : ∃ n, fuel = n + 1 := ⟨fuel - 1, by simp at hf; omega⟩
    simp only [calls, List.length_nil] at h'
    cases e : next s with
    | ok r => rw [e] at h'; simp at h'
    | err _ => rw [e] at h'; simp at h'
    | panic _ => rw [e] at h'; simp at h'; subst h'; simp [forLoop, e]
    | timeout => rw [e] at h'; simp at h'
  | cons a l ih =>
    obtain ⟨n, rfl⟩ : ∃ n, fuel = n + 1 := ⟨fuel - 1, by simp at hf; omega⟩
    simp only [List.length_cons] at hf
    rw [List.length_cons, calls] at h h'
    cases e : next s with
    | ok r =>
      obtain ⟨r1, r2⟩ := r
      rw [e, Out.ok_bind] at h h'
      simp only at h h'
      cases e2 : calls next l.length r2 with
      | ok os =>
        rw [e2] at h
        simp only [Out.ok_bind, List.map_cons, Out.ok.injEq, List.cons.injEq] at h
        obtain ⟨rfl, rfl⟩ := h
        have e3 : calls next (l.length + 1) r2 = .panic m := by
          cases e3 : calls next (l.length + 1) r2 with
          | ok _ => rw [e3] at h'; simp at h'
          | err _ => rw [e3] at h'; simp at h'
          | panic _ => rw [e3] at h'; simpa using h'
          | timeout => rw [e3] at h'; simp at h'
        rw [List.foldlM_cons]
        simp only [forLoop, e, Out.ok_bind]
        cases hb : body b a with
        | ok b' => simp only [Out.ok_bind]; exact ih e2 e3 n (by omega) b'
        | err e => rfl
        | panic m => rfl
        | timeout => rfl
      | err _ => rw [e2] at h; simp at h
      | panic _ => rw [e2] at h; simp at h
      | timeout => rw [e2] at h; simp at h
    | err _ => rw [e] at h; simp at h
    | panic _ => rw [e] at h; simp at h
    | timeout => rw [e] at h; simp at h

theorem EndsAfter.calls_end {s : σ} {l : List α} (h : EndsAfter next s l) :
    calls next (l.length + 1) s = .ok (l.map some ++ [none]) := by
  rw [h (l.length + 1)]
  simp [List.take_of_length_le]

end

theorem greedyComponent_own {c : DefaultGraph} {steps : List Step} (h : OwnRun c steps) (fuel : Nat) (hf : steps.length < fuel)
    (s : List Nat × Pairing) : greedyComponent fuel s c = steps.foldlM greedyStep s := by
  obtain ⟨r, h1, d, h2, h3⟩ := h
  unfold greedyComponent
  cases hn : c.nodes with
  | nil => rw [hn] at h1; simp at h1
  | cons a l =>
    rw [hn] at h1; simp at h1; subst h1
    simp [h2]
    rw [forLoop_of_calls _ h3.calls_end fuel hf]

theorem greedyComponents_own {comps : List DefaultGraph} {runs : List (List Step)} (h : List.Forall₂ OwnRun comps runs) :
    ∃ N, ∀ fuel, N ≤ fuel → ∀ s, comps.foldlM (greedyComponent fuel) s = runs.flatten.foldlM greedyStep s := by
  induction h with
  | nil => exact ⟨0, fun _ _ _ => rfl⟩
  | @cons c steps comps runs h1 _ ih =>
    obtain ⟨N, hN⟩ := ih
    refine ⟨max N (steps.length + 1), fun fuel hf s => ?_⟩
    rw [List.foldlM_cons, greedyComponent_own h1 fuel (by omega), List.flatten_cons, List.foldlM_append]
    congr 1
    funext s'
    exact hN fuel (by omega) s'

/-- `greedy` over the traversals of the components. -/
theorem greedy_of_run {g : GraphI} {comps : List DefaultGraph} {runs : List (List Step)} (hr : List.Forall₂ OwnRun comps runs)
    (hc : Components.Run g comps) : ∃ p, GreedyReturns g p ∧ p.Symmetric ∧ ∃ K, FirstCome runs.flatten K ∧
      ∀ u v, p.mate u = .ok v ↔
        ∃ i s, runs.flatten[i]? = some s ∧ K i ∧ ((s.sid = u ∧ s.tid = v) ∨ (s.sid = v ∧ s.tid = u)) := by
  obtain ⟨s, K, e, hsym, hK, -, hget⟩ := greedyFold_exact runs.flatten
  obtain ⟨N, hN⟩ := greedyComponents_own hr
  obtain ⟨M, hM⟩ := hc
  refine ⟨s.2, ⟨max (comps.length + 1) (max M N), fun fuel hf => ?_⟩, hsym, K, hK, fun u v => by rw [mate_eq_ok]; exact hget u v⟩
  unfold greedy
  rw [forLoop_of_calls _ (hM fuel (by omega)).calls_end fuel (by omega), hN fuel (by omega), e]
  rfl

/-- `greedy` if `components` panics. -/
theorem greedy_of_panic {g : GraphI} {comps : List DefaultGraph} {runs : List (List Step)} (hr : List.Forall₂ OwnRun comps runs)
    {m : String} {M : Nat} (hc : ∀ fuel, M ≤ fuel → calls (Components.next g fuel) comps.length (Components.new g) = .ok (comps.map some) ∧
        calls (Components.next g fuel) (comps.length + 1) (Components.new g) = .panic m) :
    ∃ N, ∀ fuel, N ≤ fuel → greedy g fuel = .panic m := by
  obtain ⟨s, K, e, -⟩ := greedyFold_exact runs.flatten
  obtain ⟨N, hN⟩ := greedyComponents_own hr
  refine ⟨max (comps.length + 1) (max M N), fun fuel hf => ?_⟩
  obtain ⟨h1, h2⟩ := hc fuel (by omega)
  unfold greedy
  rw [forLoop_of_calls_panic _ h1 h2 fuel (by omega), hN fuel (by omega), e]
  rfl

namespace Components
variable {g : GraphI} {r : Nat} {c : DefaultGraph}

theorem Outcome.isComp (h : Outcome g r (.ok c)) : IsComp g r c := by
  cases h with
  | found st _ h1 h2 h3 h4 h5 h6 => exact ⟨⟨st, h1, h4, h5⟩, h3, by rw [h5]; exact h6⟩

theorem IsComp.own (h : IsComp g r c) : ∃ steps, OwnRun c steps := by
  obtain ⟨d, steps, d', e, t, he, -⟩ := DepthFirst.run h.lawful h.root_mem
  exact ⟨steps, r, h.head, d, e, endsAfter_of_trace t he⟩

theorem own_all {comps : List DefaultGraph} (h : ∀ c ∈ comps, ∃ r, IsComp g r c) : ∃ runs, List.Forall₂ OwnRun comps runs := by
  induction comps with
  | nil => exact ⟨[], .nil⟩
  | cons a l ih =>
    obtain ⟨runs, h1⟩ := ih (fun c hc => h c (by simp [hc]))
    obtain ⟨r, hr⟩ := h a (by simp)
    obtain ⟨st, hs⟩ := hr.own
    exact ⟨st :: runs, .cons hs h1⟩

end Components

end Gamma
