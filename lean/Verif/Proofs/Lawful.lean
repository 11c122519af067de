import Verif.Spec
import Verif.Proofs.Basic
import Mathlib.Data.List.Nodup
/-
Consequences of the `Graph` contract, and iterators that run to their end.
-/
namespace Gamma

theorem GraphI.nbr_of_ok {g : GraphI} {v : Nat} {l : List Nat} (h : g.neighbors v = .ok l) :
    g.nbr v = l := by simp [GraphI.nbr, h]

theorem GraphI.mem_nbr {g : GraphI} {u v : Nat} : v ∈ g.nbr u ↔ g.Adj u v := by
  unfold GraphI.nbr GraphI.Adj
  cases h : g.neighbors u <;> simp

namespace GraphI.Lawful
variable {g : GraphI}

theorem neighbors_eq (h : g.Lawful) {v : Nat} (hv : v ∈ g.nodes) : g.neighbors v = .ok (g.nbr v) := by
  obtain ⟨l, hl⟩ := h.neighbors_ok v hv
  rw [nbr_of_ok hl, hl]

theorem adj_src (h : g.Lawful) {u v : Nat} (ha : g.Adj u v) : u ∈ g.nodes := by
  by_contra hc
  obtain ⟨l, hl, -⟩ := ha
  rw [h.neighbors_err u hc] at hl; simp at hl

theorem mem_of_nbr (h : g.Lawful) {u v : Nat} (hv : v ∈ g.nbr u) : v ∈ g.nodes :=
  h.adj_mem u v (mem_nbr.1 hv)

theorem simple_adj (h : g.Lawful) {u v : Nat} : g.simple.Adj u v ↔ u ≠ v ∧ g.Adj u v := by
  unfold simple
  rw [SimpleGraph.fromRel_adj]
  constructor
  · rintro ⟨h1, h2 | h2⟩
    · exact ⟨h1, h2⟩
    · exact ⟨h1, h.adj_symm _ _ h2⟩
  · rintro ⟨h1, h2⟩; exact ⟨h1, .inl h2⟩

theorem nbr_count (h : g.Lawful) {u v : Nat} (hne : u ≠ v) (ha : g.Adj u v) : (g.nbr u).count v = 1 := by
  have h1 := h.neighbor_once u v _ (h.neighbors_eq (h.adj_src ha)) hne
  have h2 := List.count_pos_iff.2 (mem_nbr.2 ha)
  omega

theorem nbr_nodup (h : g.Lawful) (hl : g.Loopless) (u : Nat) : (g.nbr u).Nodup := by
  rw [List.nodup_iff_count_le_one]
  intro v
  by_cases ha : g.Adj u v
  · have : u ≠ v := by rintro rfl; exact hl u ha
    rw [h.nbr_count this ha]
  · rw [List.count_eq_zero.2 (by rw [mem_nbr]; exact ha)]; omega

end GraphI.Lawful

/-- Sum of the degrees of the nodes not in `visited`. -/
def pendingDegree (g : GraphI) (visited : List Nat) : Nat :=
  ((g.nodes.filter (fun v => !visited.contains v)).map (fun v => (g.nbr v).length)).sum

theorem pendingDegree_cons {g : GraphI} (hn : g.nodes.Nodup) {visited : List Nat} {n : Nat}
    (hm : n ∈ g.nodes) (hv : n ∉ visited) :
    pendingDegree g (n :: visited) + (g.nbr n).length = pendingDegree g visited := by
  unfold pendingDegree
  generalize g.nodes = l at hn hm
  induction l with
  | nil => simp at hm
  | cons a l ih =>
    rw [List.nodup_cons] at hn
    by_cases ha : a = n
    · subst ha
      have h1 : (l.filter (fun v => !(a :: visited).contains v)) = l.filter (fun v => !visited.contains v) := by
        apply List.filter_congr
        intro x hx
        have : x ≠ a := by rintro rfl; exact hn.1 hx
        simp [this]
      rw [List.filter_cons, List.filter_cons, h1]
      simp [hv]; omega
    · have hm' : n ∈ l := by simpa [Ne.symm ha] using hm
      have := ih hn.2 hm'
      rw [List.filter_cons, List.filter_cons]
      by_cases hav : a ∈ visited
      · simp [hav]
        simpa using this
      · simp [hav, ha]
        simp at this
        omega

section iter
variable {σ α : Type} {next : σ → Out (Option α × σ)}

theorem calls_none {s : σ} (h : next s = .ok (none, s)) (n : Nat) :
    calls next n s = .ok (List.replicate n none) := by
  induction n with
  | zero => rfl
  | succ n ih => simp [calls, h, ih, List.replicate_succ]

theorem endsAfter_of_trace {s s' : σ} {l : List α} (h : Trace next s l s')
    (hend : next s' = .ok (none, s')) : EndsAfter next s l := by
  intro n
  induction h generalizing n with
  | nil s => simp [calls_none hend]
  | cons s s1 s2 a l hn _ ih =>
    cases n with
    | zero => simp [calls]
    | succ n => simp [calls, hn, ih hend n]

/-- The items an ending iterator yields are unique. -/
theorem endsAfter_unique {s : σ} {l l' : List α} (h : EndsAfter next s l) (h' : EndsAfter next s l') :
    l = l' := by
  have key : ∀ l l' : List α, EndsAfter next s l → EndsAfter next s l' → l.length ≤ l'.length → l = l' := by
    intro l l' h h' hle
    have e := (h (l'.length)).symm.trans (h' l'.length)
    simp only [Out.ok.injEq, List.take_length, Nat.sub_self, List.replicate_zero, List.append_nil] at e
    by_cases hlt : l.length = l'.length
    · rw [← hlt, List.take_length, Nat.sub_self, List.replicate_zero, List.append_nil] at e
      exact List.map_injective_iff.2 (fun _ _ h => Option.some.inj h) e
    · have : none ∈ l'.map some := by
        rw [← e]; simp; omega
      simp at this
  rcases Nat.le_total l.length l'.length with hle | hle
  · exact key l l' h h' hle
  · exact (key l' l h' h hle).symm

/-- An iterator whose states carry an invariant and a decreasing measure runs to its end. -/
theorem exists_trace (Inv : List α → σ → Prop) (μ : σ → Nat)
    (step : ∀ l s, Inv l s → (next s = .ok (none, s)) ∨
      ∃ a s', next s = .ok (some a, s') ∧ Inv (l ++ [a]) s' ∧ μ s' < μ s)
    (l : List α) (s : σ) (h : Inv l s) :
    ∃ l' s', Trace next s l' s' ∧ next s' = .ok (none, s') ∧ Inv (l ++ l') s' := by
  induction hm : μ s using Nat.strong_induction_on generalizing l s with
  | _ m ih =>
    subst hm
    rcases step l s h with h1 | ⟨a, s', h1, h2, h3⟩
    · exact ⟨[], s, .nil s, h1, by simpa using h⟩
    · obtain ⟨l', s'', t, e, i⟩ := ih (μ s') h3 (l ++ [a]) s' h2 rfl
      exact ⟨a :: l', s'', .cons _ _ _ _ _ h1 t, e, by simpa using i⟩

end iter
end Gamma
