import Verif.Proofs.Parts2
import Verif.Proofs.Arc
import Verif.Proofs.LiftSpec
/-
The search on a part of a graph that no edge leaves, through contractions.
-/
namespace Gamma
open Pairing Blossom DefaultGraph

theorem Out.bind_congr_ok {α β : Type} (x : Out α) {k k' : α → Out β} (h : ∀ y, x = .ok y → k y = k' y) : (x >>= k) = (x >>= k') := by
  cases x with
  | ok y => exact h y rfl
  | err e => rfl
  | panic m => rfl
  | timeout => rfl

theorem vecIndex_mem {l : List Nat} {i c : Nat} (h : vecIndex l i = .ok c) : c ∈ l := by
  unfold vecIndex at h
  split at h
  · rename_i hc; cases h; exact List.mem_of_getElem? hc
  · cases h

section
variable {g h : GraphI} {T : Nat → Prop}

theorem rotateToHead_congr (H : ∀ u v, T u → T v → g.hasEdge u v = h.hasEdge u v) {sid : Nat} (hs : T sid) (n : Nat) :
    ∀ l : List Nat, (∀ x ∈ l, T x) → rotateToHead g sid n l = rotateToHead h sid n l := by
  induction n with
  | zero => intro l _; rfl
  | succ n ih =>
    intro l hl
    rw [rotateToHead, rotateToHead]
    refine Out.bind_congr_ok _ (fun c0 hc => ?_)
    rw [H sid c0 hs (hl _ (vecIndex_mem hc)), ih _ (fun x hx => hl x ((rotateRight1_rot l).perm.mem_iff.1 hx))]

theorem rotateToHead_mem {sid : Nat} (n : Nat) : ∀ {l l' : List Nat}, rotateToHead g sid n l = .ok l' → ∀ x ∈ l', x ∈ l := by
  induction n with
  | zero => intro l l' e; cases e
  | succ n ih =>
    intro l l' e x hx
    rw [rotateToHead] at e
    obtain ⟨c0, -, e⟩ := Out.bind_eq_ok.1 e
    obtain ⟨b, -, e⟩ := Out.bind_eq_ok.1 e
    cases b with
    | true => simp only [Bool.not_true, Bool.false_eq_true, if_false] at e; cases e; exact hx
    | false =>
      simp only [Bool.not_false, if_true] at e
      exact (rotateRight1_rot l).perm.mem_iff.1 (ih e x hx)

theorem rotateToLast_congr (H : ∀ u v, T u → T v → g.hasEdge u v = h.hasEdge u v) {tid : Nat} (ht : T tid) (n : Nat) :
    ∀ l : List Nat, (∀ x ∈ l, T x) → rotateToLast g tid n l = rotateToLast h tid n l := by
  induction n with
  | zero => intro l _; rfl
  | succ n ih =>
    intro l hl
    rw [rotateToLast, rotateToLast]
    cases hc : l.getLast? with
    | none => rfl
    | some c =>
      simp only
      rw [H c tid (hl _ (List.mem_of_getLast? hc)) ht, ih _ (fun x hx => hl x ((rotateRight1_rot l).perm.mem_iff.1 hx))]

theorem pushUntil_congr (H : ∀ u v, T u → T v → g.hasEdge u v = h.hasEdge u v) {tid : Nat} (ht : T tid) (l : List Nat) :
    (∀ x ∈ l, T x) → ∀ out : List Nat, pushUntil g tid l out = pushUntil h tid l out := by
  induction l with
  | nil => intro _ out; rfl
  | cons x l ih =>
    intro hl out
    rw [pushUntil, pushUntil, H x tid (hl x List.mem_cons_self) ht, ih (fun y hy => hl y (List.mem_cons_of_mem _ hy))]

theorem liftThrough_congr (H : ∀ u v, T u → T v → g.hasEdge u v = h.hasEdge u v) (n : Nat) {bp left right : List Nat} {sid tid : Nat}
    (hb : ∀ x ∈ bp, T x) (hs : T sid) (ht : T tid) : liftThrough n bp left right sid tid g = liftThrough n bp left right sid tid h := by
  unfold liftThrough
  rw [rotateToHead_congr H hs n bp hb]
  refine Out.bind_congr_ok _ (fun bl hbl => ?_)
  rw [pushUntil_congr H ht bl (fun x hx => hb x (rotateToHead_mem n hbl x hx))]

/-- Lifting asks for edges between nodes of the path and nodes of the blossom only. -/
theorem lift_congr (H : ∀ u v, T u → T v → g.hasEdge u v = h.hasEdge u v) {b : Blossom} (hb : ∀ x ∈ b.path, T x) (n : Nat) {path : List Nat}
    (hp : path.Nodup) (hT : ∀ x ∈ path, x ≠ b.id → T x) : b.lift n path g = b.lift n path h := by
  unfold lift
  cases hi : path.findIdx? (fun pid => pid == b.id) with
  | none => rfl
  | some index =>
    rw [List.findIdx?_eq_some_iff_getElem] at hi
    obtain ⟨hlt, hid, -⟩ := hi
    have hid : path[index] = b.id := by simpa using hid
    have hsplit : path = path.take index ++ b.id :: path.drop (index + 1) := by
      rw [← hid, List.getElem_cons_drop, List.take_append_drop]
    have hnd := hp
    rw [hsplit, List.nodup_append] at hnd
    have hleft : ∀ x ∈ path.take index, T x := fun x hx => hT x (List.mem_of_mem_take hx) (hnd.2.2 x hx _ List.mem_cons_self)
    have hright : ∀ x ∈ path.drop (index + 1), T x := fun x hx => hT x (List.mem_of_mem_drop hx) (by
      rintro rfl
      exact (List.nodup_cons.1 hnd.2.1).1 hx)
    have e1 : b.liftLeftBlossom n (path.take index) g = b.liftLeftBlossom n (path.take index) h := by
      unfold liftLeftBlossom
      cases hl : (path.take index).getLast? with
      | none => rfl
      | some sid => simp only; rw [rotateToHead_congr H (hleft _ (List.mem_of_getLast? hl)) n b.path hb]
    have e2 : b.liftBlossomRight n (path.drop (index + 1)) g = b.liftBlossomRight n (path.drop (index + 1)) h := by
      unfold liftBlossomRight
      refine Out.bind_congr_ok _ (fun tid ht => ?_)
      rw [rotateToLast_congr H (hright _ (vecIndex_mem ht)) n b.path hb]
    have e3 : b.liftLeftBlossomRight n (path.take index) (path.drop (index + 1)) g =
        b.liftLeftBlossomRight n (path.take index) (path.drop (index + 1)) h := by
      unfold liftLeftBlossomRight
      cases hl : (path.take index).getLast? with
      | none => rfl
      | some sid =>
        simp only
        refine Out.bind_congr_ok _ (fun tid ht => ?_)
        have hs := hleft _ (List.mem_of_getLast? hl)
        have ht := hright _ (vecIndex_mem ht)
        rw [liftThrough_congr H n hb hs ht, liftThrough_congr H n (fun x hx => hb x (List.mem_reverse.1 hx)) hs ht]
    simp only
    rw [e1, e2, e3]

end
end Gamma
