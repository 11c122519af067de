import Verif.Proofs.AugSpec
import Mathlib.Data.List.Rotate
/-
Arcs of a blossom: rotations, paired lists, odd cycles.
-/
namespace Gamma
open Pairing

/-! ### Rotations -/

theorem rot_form {base : Nat} {q r : List Nat} (h : r.IsRotated (base :: q)) :
    ∃ u v, q = u ++ v ∧ r = v ++ base :: u := by
  obtain ⟨n, hn⟩ := h.symm
  obtain ⟨u, v, e1, e2⟩ : ∃ u v, base :: q = u ++ v ∧ r = v ++ u :=
    ⟨(base :: q).take (n % (base :: q).length), (base :: q).drop (n % (base :: q).length),
      (List.take_append_drop _ _).symm, by rw [← hn, List.rotate_eq_drop_append_take_mod]⟩
  cases u with
  | nil =>
    simp at e1
    refine ⟨q, [], by simp, ?_⟩
    rw [e2, ← e1]; simp
  | cons a u =>
    simp at e1
    exact ⟨u, v, e1.2, by rw [e2, e1.1]⟩

/-- A rotation is determined by its head. -/
theorem rot_head {c : Nat} {q r : List Nat} (h : (c :: r).IsRotated (c :: q)) (hn : (c :: q).Nodup) : r = q := by
  obtain ⟨u, v, e1, e2⟩ := rot_form h
  cases v with
  | nil => simp at e1 e2; rw [e1, e2]
  | cons a v =>
    simp at e2
    rw [List.nodup_cons] at hn
    exact absurd (by rw [e1, e2.1]; simp) hn.1

theorem rot_to {B : List Nat} {c : Nat} (h : c ∈ B) : ∃ q, B.IsRotated (c :: q) := by
  obtain ⟨u, v, rfl⟩ := List.append_of_mem h
  exact ⟨v ++ u, by have := List.isRotated_append (l := u) (l' := c :: v); simpa using this⟩

theorem rotateRight1_rot (l : List Nat) : (Blossom.rotateRight1 l).IsRotated l := by
  rcases List.eq_nil_or_concat l with rfl | ⟨l, x, rfl⟩
  · exact List.IsRotated.refl _
  · rw [List.concat_eq_append]
    have : Blossom.rotateRight1 (l ++ [x]) = [x] ++ l := by simp [Blossom.rotateRight1]
    rw [this]
    exact List.isRotated_append

theorem rotateToHead_rot {g : GraphI} {sid : Nat} (fuel : Nat) : ∀ {B r : List Nat},
    Blossom.rotateToHead g sid fuel B = .ok r → r.IsRotated B := by
  induction fuel with
  | zero => intro B r h; simp [Blossom.rotateToHead] at h
  | succ n ih =>
    intro B r h
    rw [Blossom.rotateToHead, Out.bind_eq_ok] at h
    obtain ⟨c0, -, h⟩ := h
    rw [Out.bind_eq_ok] at h
    obtain ⟨b, -, h⟩ := h
    split at h
    · exact (ih h).trans (rotateRight1_rot B)
    · simp at h; subst h; exact List.IsRotated.refl _

theorem Cyclic.rot {g : GraphI} {B r : List Nat} (h : Cyclic g B) (hr : r.IsRotated B) : Cyclic g r := by
  obtain ⟨n, rfl⟩ := hr.symm
  rw [List.rotate_eq_drop_append_take_mod]
  apply Cyclic.swap
  rw [List.take_append_drop]; exact h

theorem IsRotated.mem {B r : List Nat} (h : r.IsRotated B) {x : Nat} : x ∈ r ↔ x ∈ B := h.perm.mem_iff

/-! ### Arcs -/

/-- A path inside `B` from `c` to `d`. -/
structure Arc (g : GraphI) (B : List Nat) (c d : Nat) (l : List Nat) : Prop where
  sub : ∀ x ∈ l, x ∈ B
  nodup : l.Nodup
  chain : l.IsChain g.Adj
  head : l.head? = some c
  last : l.getLast? = some d

theorem Arc.of_rot {g : GraphI} {B : List Nat} (hn : B.Nodup) (hc : Cyclic g B) {c d : Nat} {s1 s2 : List Nat}
    (hr : (c :: s1 ++ d :: s2).IsRotated B) : Arc g B c d (c :: s1 ++ [d]) := by
  have hnd : (c :: s1 ++ d :: s2).Nodup := hr.perm.nodup_iff.2 hn
  have e : c :: s1 ++ d :: s2 = (c :: s1 ++ [d]) ++ s2 := by simp
  refine ⟨?_, ?_, ?_, by simp, by rw [List.getLast?_concat]⟩
  · intro x hx
    rw [← IsRotated.mem hr, e]; exact List.mem_append_left _ hx
  · rw [e] at hnd; exact (List.nodup_append.1 hnd).1
  · have := (hc.rot hr).chain
    rw [e] at this; exact this.left_of_append

/-- Between two different nodes of an odd closed walk there are arcs of both parities. -/
theorem exists_arc {g : GraphI} (hg : g.Lawful) {B : List Nat} (hn : B.Nodup) (hc : Cyclic g B) (ho : B.length % 2 = 1)
    {c d : Nat} (hcB : c ∈ B) (hdB : d ∈ B) (hne : c ≠ d) (k : Nat) : ∃ l, Arc g B c d l ∧ l.length % 2 = k % 2 := by
  obtain ⟨q, hq⟩ := rot_to hcB
  have hd : d ∈ q := by
    have := (IsRotated.mem hq).1 hdB
    rcases List.mem_cons.1 this with h | h
    · exact absurd h.symm hne
    · exact h
  obtain ⟨s1, s2, rfl⟩ := List.append_of_mem hd
  have hq' : (c :: s1 ++ d :: s2).IsRotated B := by simpa using hq.symm
  have hlen := hq'.perm.length_eq
  simp at hlen
  by_cases hk : (c :: s1 ++ [d]).length % 2 = k % 2
  · exact ⟨_, Arc.of_rot hn hc hq', hk⟩
  · have hr : (c :: s2.reverse ++ d :: s1.reverse).IsRotated B.reverse := by
      have h1 := hq'.reverse
      have e1 : (c :: s1 ++ d :: s2).reverse = (s2.reverse ++ d :: s1.reverse) ++ [c] := by simp
      rw [e1] at h1
      have h2 : (c :: s2.reverse ++ d :: s1.reverse).IsRotated ((s2.reverse ++ d :: s1.reverse) ++ [c]) := by
        have := List.isRotated_append (l := [c]) (l' := s2.reverse ++ d :: s1.reverse)
        simpa using this
      exact h2.trans h1
    have := Arc.of_rot (g := g) (List.nodup_reverse.2 hn) (hc.reverse hg) hr
    refine ⟨_, ⟨fun x hx => List.mem_reverse.1 (this.sub x hx), this.nodup, this.chain, this.head, this.last⟩, ?_⟩
    simp at hk ⊢
    omega

end Gamma
