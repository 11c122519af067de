import Verif.Proofs.Lift
/-
The alternating forest: paths to the root, and the blossom closed by an edge between even nodes of one tree.
-/
namespace Gamma
open Pairing

/-- The forest entry of a node whose path to its root is the given list. -/
def entryOf : List Nat → Option Entry
  | [] => none
  | [_] => some ⟨none, true⟩
  | _ :: q :: l => some ⟨some q, l.length % 2 == 1⟩

/-- `f` is an alternating forest of `p` in `g`; `P x` is the path from `x` to its root (empty for nodes that are
not in the forest). -/
structure FInv (g : GraphI) (p : Pairing) (f : Forest) (P : Nat → List Nat) : Prop where
  get : ∀ x, HMap.get f.parents x = entryOf (P x)
  nodes : ∀ x, x ∈ f.nodes ↔ P x ≠ []
  sub : ∀ x, P x ≠ [] → x ∈ g.nodes
  shape : ∀ x, P x ≠ [] → (P x = [x] ∧ p.get x = none) ∨ ∃ q, P q ≠ [] ∧ P x = x :: P q ∧ g.Adj x q
  nodup : ∀ x, (P x).Nodup
  mate_up : ∀ x q, P x = x :: P q → P q ≠ [] → (P x).length % 2 = 1 → p.get x = some q
  odd_child : ∀ x, (P x).length % 2 = 0 → P x ≠ [] → ∃ y, p.get x = some y ∧ P y = y :: P x
  roots : ∀ x ∈ g.nodes, p.get x = none → P x ≠ []

theorem Forest.evenAmong_eq {f : Forest} {b : Nat → Bool} {l : List Nat} (h : ∀ x ∈ l, f.isEven x = .ok (b x)) :
    f.evenAmong l = .ok (l.filter b) := by
  induction l with
  | nil => rfl
  | cons x r ih =>
    rw [Forest.evenAmong, h x List.mem_cons_self, Out.ok_bind, ih (fun y hy => h y (List.mem_cons_of_mem _ hy)), Out.ok_bind,
      List.filter_cons]

theorem Forest.firstEven_eq {f : Forest} {b pred : Nat → Bool} {l : List Nat} (h : ∀ x ∈ l, f.isEven x = .ok (b x)) :
    f.firstEven pred l = .ok ((l.filter b).find? pred) := by
  induction l with
  | nil => rfl
  | cons x r ih =>
    rw [Forest.firstEven, h x List.mem_cons_self, Out.ok_bind, ih (fun y hy => h y (List.mem_cons_of_mem _ hy)),
      List.filter_cons]
    cases b x <;> cases hp : pred x <;> simp [hp]

namespace FInv
variable {g : GraphI} {p : Pairing} {f : Forest} {P : Nat → List Nat}

theorem head (h : FInv g p f P) {x : Nat} (hx : P x ≠ []) : ∃ l, P x = x :: l := by
  rcases h.shape x hx with ⟨e, -⟩ | ⟨q, -, e, -⟩
  · exact ⟨[], e⟩
  · exact ⟨P q, e⟩

theorem suffix (h : FInv g p f P) (x : Nat) : ∀ y ∈ P x, P y ≠ [] ∧ ∃ l, P x = l ++ P y := by
  have : ∀ n x, (P x).length ≤ n → ∀ y ∈ P x, P y ≠ [] ∧ ∃ l, P x = l ++ P y := by
    intro n
    induction n with
    | zero => intro x hx y hy; have : P x = [] := List.length_eq_zero_iff.1 (by omega); rw [this] at hy; simp at hy
    | succ n ih =>
      intro x hx y hy
      have hne : P x ≠ [] := List.ne_nil_of_mem hy
      rcases h.shape x hne with ⟨e, -⟩ | ⟨q, hq, e, -⟩
      · rw [e] at hy; simp at hy; subst hy; exact ⟨hne, [], rfl⟩
      · rw [e] at hy
        rcases List.mem_cons.1 hy with rfl | hy
        · exact ⟨hne, [], rfl⟩
        · obtain ⟨h1, l, hl⟩ := ih q (by rw [e] at hx; simp at hx; omega) y hy
          exact ⟨h1, x :: l, by rw [e, hl]; rfl⟩
  exact this _ x (Nat.le_refl _)

theorem mem_nodes (h : FInv g p f P) {x y : Nat} (hy : y ∈ P x) : y ∈ g.nodes := h.sub y (h.suffix x y hy).1

theorem chain (h : FInv g p f P) (x : Nat) : (P x).IsChain g.Adj := by
  have : ∀ n x, (P x).length ≤ n → (P x).IsChain g.Adj := by
    intro n
    induction n with
    | zero => intro x hx; have : P x = [] := List.length_eq_zero_iff.1 (by omega); rw [this]; exact .nil
    | succ n ih =>
      intro x hx
      by_cases hne : P x = []
      · rw [hne]; exact .nil
      rcases h.shape x hne with ⟨e, -⟩ | ⟨q, hq, e, ha⟩
      · rw [e]; exact .singleton _
      · have := ih q (by rw [e] at hx; simp at hx; omega)
        obtain ⟨l, hl⟩ := h.head hq
        rw [e]; rw [hl] at this ⊢
        exact .cons_cons ha this
  exact this _ x (Nat.le_refl _)

theorem length_le (h : FInv g p f P) (hg : g.Lawful) (x : Nat) : (P x).length ≤ g.nodes.length := by
  exact ((h.nodup x).subperm (fun y hy => h.mem_nodes hy)).length_le

theorem stem (h : FInv g p f P) (x : Nat) (hx : (P x).length % 2 = 1) : Stem p (P x) := by
  have : ∀ n x, (P x).length ≤ n → (P x).length % 2 = 1 → Stem p (P x) := by
    intro n
    induction n with
    | zero => intro x hx h; omega
    | succ n ih =>
      intro x hx hodd
      have hne : P x ≠ [] := by intro e; rw [e] at hodd; simp at hodd
      rcases h.shape x hne with ⟨e, hr⟩ | ⟨q, hq, e, -⟩
      · rw [e]; exact .root _ hr
      · have hm := h.mate_up x q e hq hodd
        have hlen : (P x).length = (P q).length + 1 := by rw [e]; simp
        rcases h.shape q hq with ⟨e2, -⟩ | ⟨q2, hq2, e2, -⟩
        · rw [e2] at hlen; simp at hlen; omega
        · have hlen2 : (P q).length = (P q2).length + 1 := by rw [e2]; simp
          have := ih q2 (by omega) (by omega)
          rw [e, e2]
          exact .cons _ _ _ hm this
  exact this _ x (Nat.le_refl _) hx

theorem pathLoop (h : FInv g p f P) (q : Nat) (hq : P q ≠ []) (fuel : Nat) (hf : (P q).length < fuel)
    (acc : List Nat) : f.pathLoop fuel (some q) acc = .ok (acc ++ P q) := by
  induction fuel generalizing q acc with
  | zero => omega
  | succ n ih =>
    have hpos : 0 < (P q).length := List.length_pos_of_ne_nil hq
    rcases h.shape q hq with ⟨e, -⟩ | ⟨q', hq', e, -⟩
    · obtain ⟨n, rfl⟩ : ∃ m, n = m + 1 := ⟨n - 1, by omega⟩
      rw [Forest.pathLoop, h.get, e]
      simp [entryOf, Forest.pathLoop]
    · rw [Forest.pathLoop, h.get, e]
      obtain ⟨l, hl⟩ := h.head hq'
      rw [hl]
      simp only [entryOf]
      rw [ih q' hq' (by rw [e] at hf; simp at hf; omega), hl]; simp

theorem pathLoop_timeout (h : FInv g p f P) (q : Nat) (hq : P q ≠ []) (fuel : Nat) (hf : fuel ≤ (P q).length)
    (acc : List Nat) : f.pathLoop fuel (some q) acc = .timeout := by
  induction fuel generalizing q acc with
  | zero => rfl
  | succ n ih =>
    rcases h.shape q hq with ⟨e, -⟩ | ⟨q', hq', e, -⟩
    · have : n = 0 := by rw [e] at hf; simp at hf; exact hf
      subst this
      rw [Forest.pathLoop, h.get, e]; rfl
    · rw [Forest.pathLoop, h.get, e]
      obtain ⟨l, hl⟩ := h.head hq'
      rw [hl]
      simp only [entryOf]
      exact ih q' hq' (by rw [e] at hf; simp at hf; omega) _

/-- `path` returns the path, or runs out of budget when the path is longer than the budget. -/
theorem path (h : FInv g p f P) (x : Nat) (fuel : Nat) :
    f.path fuel x = if fuel < (P x).length then .timeout else .ok (if P x = [] then none else some (P x)) := by
  unfold Forest.path
  rw [h.get]
  by_cases hx : P x = []
  · simp [hx, entryOf]
  · rcases h.shape x hx with ⟨e, -⟩ | ⟨q, hq, e, -⟩
    · rw [e]
      cases fuel with
      | zero => simp [entryOf, Forest.pathLoop]
      | succ n => simp [entryOf, Forest.pathLoop]
    · obtain ⟨l, hl⟩ := h.head hq
      have hlen : (P x).length = (P q).length + 1 := by rw [e]; simp
      have ee : entryOf (P x) = some ⟨some q, l.length % 2 == 1⟩ := by rw [e, hl]; rfl
      rw [ee]
      simp only
      by_cases hf : fuel < (P x).length
      · rw [h.pathLoop_timeout q hq fuel (by omega)]; simp [hf]
      · rw [h.pathLoop q hq fuel (by omega)]; simp [hf, hx]; rw [e]

theorem isEven (h : FInv g p f P) (x : Nat) (hx : x ∈ f.nodes) :
    f.isEven x = .ok ((P x).length % 2 == 1) := by
  have hne := (h.nodes x).1 hx
  unfold Forest.isEven
  rw [h.get]
  match e : P x with
  | [] => exact absurd e hne
  | [_] => simp [entryOf]
  | _ :: q :: l =>
    simp only [entryOf, List.length_cons]
    rcases Nat.mod_two_eq_zero_or_one l.length with h0 | h0
    · have : (l.length + 1 + 1) % 2 = 0 := by omega
      simp [h0, this]
    · have : (l.length + 1 + 1) % 2 = 1 := by omega
      simp [h0, this]

/-- The search of `some_v` over an intact forest. -/
theorem someV (h : FInv g p f P) (m : Marker) :
    Gamma.someV f m = .ok ((f.nodes.filter (fun x => (P x).length % 2 == 1)).find? (fun x => !m.hasNode x)) :=
  Forest.firstEven_eq (fun x => h.isEven x)

/-- Nodes of the forest are closed under mates. -/
theorem mate_mem (h : FInv g p f P) {x y : Nat} (hx : P x ≠ []) (e : p.get x = some y) : P y ≠ [] := by
  rcases Nat.mod_two_eq_zero_or_one (P x).length with h0 | h1
  · obtain ⟨z, ez, hz⟩ := h.odd_child x h0 hx
    rw [e] at ez; cases ez; rw [hz]; simp
  · rcases h.shape x hx with ⟨-, hr⟩ | ⟨q, hq, eq, -⟩
    · rw [hr] at e; simp at e
    · have := h.mate_up x q eq hq h1
      rw [e] at this; cases this; exact hq

/-- The mate of an even node is its parent. -/
theorem mate_even (h : FInv g p f P) {x y : Nat} (hx : (P x).length % 2 = 1) (e : p.get x = some y) :
    P x = x :: P y ∧ P y ≠ [] := by
  have hne : P x ≠ [] := by intro e; rw [e] at hx; simp at hx
  rcases h.shape x hne with ⟨-, hr⟩ | ⟨q, hq, eq, -⟩
  · rw [hr] at e; simp at e
  · have := h.mate_up x q eq hq hx
    rw [e] at this; cases this; exact ⟨eq, hq⟩

/-- Growing the forest by an unvisited paired node and its mate. -/
theorem grow (h : FInv g p f P) (hg : g.Lawful) (hp : p.Matches g) {v w mw : Nat} (hv : (P v).length % 2 = 1) (ha : g.Adj v w)
    (hw : P w = []) (hm : p.get w = some mw) :
    ∃ f1 f2 P2, f.addEdge v w = .ok f1 ∧ f1.addEdge w mw = .ok f2 ∧ FInv g p f2 P2 ∧ P2 w = w :: P v ∧
      (∀ x, P x ≠ [] → P2 x = P x) := by
  have hs := hp.symmetric
  have hv0 : P v ≠ [] := by intro e; rw [e] at hv; simp at hv
  obtain ⟨lv, hlv⟩ := h.head hv0
  have hmw0 : P mw = [] := by
    by_contra hc
    exact h.mate_mem hc (hs.get_get hm) hw
  have hwm : w ≠ mw := hs.ne hm
  have hvw : v ≠ w := by rintro rfl; exact hv0 hw
  have hvmw : v ≠ mw := by rintro rfl; exact hv0 hmw0
  let P2 : Nat → List Nat := fun x => if x = w then w :: P v else if x = mw then mw :: w :: P v else P x
  have P2w : P2 w = w :: P v := by simp [P2]
  have P2mw : P2 mw = mw :: w :: P v := by simp [P2, hwm.symm]
  have P2o : ∀ x, x ≠ w → x ≠ mw → P2 x = P x := by intro x h1 h2; simp [P2, h1, h2]
  have P2old : ∀ x, P x ≠ [] → P2 x = P x := fun x hx =>
    P2o x (fun e => hx (e ▸ hw)) (fun e => hx (e ▸ hmw0))
  have hentv : HMap.get f.parents v = entryOf (P v) := h.get v
  obtain ⟨ev, hev, hevp⟩ : ∃ ev, entryOf (P v) = some ev ∧ ev.even = true := by
    rw [hlv] at hv ⊢
    cases lv with
    | nil => exact ⟨_, rfl, rfl⟩
    | cons a l =>
      refine ⟨_, rfl, ?_⟩
      simp at hv ⊢; omega
  have e1 : f.addEdge v w = .ok { parents := f.parents.insert w ⟨some v, false⟩, nodes := f.nodes ++ [w] } := by
    unfold Forest.addEdge
    rw [hentv, hev]
    simp only
    rw [h.get w, hw]; simp [entryOf, hevp]
  have e2 : Forest.addEdge { parents := f.parents.insert w ⟨some v, false⟩, nodes := f.nodes ++ [w] } w mw =
      .ok { parents := (f.parents.insert w ⟨some v, false⟩).insert mw ⟨some w, true⟩, nodes := (f.nodes ++ [w]) ++ [mw] } := by
    unfold Forest.addEdge
    simp only [HMap.get_insert, if_true, hwm.symm, if_false]
    rw [h.get mw, hmw0]; simp [entryOf]
  refine ⟨_, _, P2, e1, e2, ?_, P2w, P2old⟩
  have hP : ∀ x y, x ≠ w → x ≠ mw → P y = [] → x ∉ [] := by intros; simp
  -- which lists extend which
  have memP : ∀ x y, y ∈ P x → y ≠ w ∧ y ≠ mw := fun x y hy =>
    ⟨fun e => (h.suffix x y hy).1 (e ▸ hw), fun e => (h.suffix x y hy).1 (e ▸ hmw0)⟩
  refine ⟨?_, ?_, ?_, ?_, ?_, ?_, ?_, ?_⟩
  · intro x
    simp only [HMap.get_insert]
    by_cases c1 : x = mw
    · subst c1; rw [P2mw]; simp [entryOf]
      have : (P v).length % 2 = 1 := hv
      simpa using this
    · by_cases c2 : x = w
      · subst c2; rw [P2w, hlv]; simp only [c1, if_false, if_true, entryOf]
        rw [hlv] at hv; simp at hv ⊢; omega
      · simp only [c1, c2, if_false]
        rw [P2o x c2 c1]; exact h.get x
  · intro x
    simp only [List.mem_append, List.mem_singleton, h.nodes]
    by_cases c2 : x = w
    · subst c2; rw [P2w]; simp
    · by_cases c1 : x = mw
      · subst c1; rw [P2mw]; simp
      · rw [P2o x c2 c1]; simp [c1, c2]
  · intro x hx
    by_cases c2 : x = w
    · subst c2; exact hp.mem_left hg hm
    · by_cases c1 : x = mw
      · subst c1; exact hp.mem_right hg hm
      · rw [P2o x c2 c1] at hx; exact h.sub x hx
  · intro x hx
    by_cases c2 : x = w
    · subst c2
      exact .inr ⟨v, by rw [P2old v hv0]; exact hv0, by rw [P2w, P2old v hv0], hg.adj_symm _ _ ha⟩
    · by_cases c1 : x = mw
      · subst c1
        exact .inr ⟨w, by rw [P2w]; simp, by rw [P2mw, P2w], hp.adj' (hs.get_get hm)⟩
      · rw [P2o x c2 c1] at hx ⊢
        rcases h.shape x hx with h1 | ⟨q, hq, e, ha⟩
        · exact .inl h1
        · exact .inr ⟨q, by rw [P2old q hq]; exact hq, by rw [P2old q hq]; exact e, ha⟩
  · intro x
    have nv := h.nodup v
    by_cases c2 : x = w
    · subst c2; rw [P2w, List.nodup_cons]; exact ⟨fun hm => (memP v x hm).1 rfl, nv⟩
    · by_cases c1 : x = mw
      · subst c1; rw [P2mw, List.nodup_cons, List.nodup_cons]
        refine ⟨?_, fun hm => (memP v w hm).1 rfl, nv⟩
        rw [List.mem_cons, not_or]
        exact ⟨hwm.symm, fun hm => (memP v x hm).2 rfl⟩
      · rw [P2o x c2 c1]; exact h.nodup x
  · intro x q hxq hq hodd
    by_cases c2 : x = w
    · subst c2; rw [P2w] at hodd; simp at hodd; omega
    · by_cases c1 : x = mw
      · subst c1
        rw [P2mw] at hxq
        simp only [List.cons.injEq, true_and] at hxq
        -- the parent is w
        have : q = w := by
          by_cases d2 : q = w
          · exact d2
          · by_cases d1 : q = x
            · subst d1; rw [P2mw] at hxq; simp at hxq
            · rw [P2o q d2 d1] at hxq hq
              exact absurd rfl (memP q w (by rw [← hxq]; simp)).1
        subst this; exact hs.get_get hm
      · rw [P2o x c2 c1] at hxq hodd
        by_cases d2 : q = w
        · subst d2; rw [P2w] at hxq
          exact absurd rfl (memP x q (by rw [hxq]; simp)).1
        · by_cases d1 : q = mw
          · subst d1; rw [P2mw] at hxq
            exact absurd rfl (memP x q (by rw [hxq]; simp)).2
          · rw [P2o q d2 d1] at hxq hq
            exact h.mate_up x q hxq hq hodd
  · intro x hev hx
    by_cases c2 : x = w
    · subst c2; exact ⟨mw, hm, by rw [P2mw, P2w]⟩
    · by_cases c1 : x = mw
      · subst c1; rw [P2mw] at hev; simp at hev; omega
      · rw [P2o x c2 c1] at hev hx
        obtain ⟨y, ey, hy⟩ := h.odd_child x hev hx
        refine ⟨y, ey, ?_⟩
        rw [P2o x c2 c1, P2old y (by rw [hy]; simp)]; exact hy
  · intro x hx hn
    have := h.roots x hx hn
    rw [P2old x this]; exact this

end FInv

/-! ### The blossom of an edge between even nodes of one tree -/

theorem newLoop_ok (R : List Nat) : ∀ (L pre : List Nat), (∃ x ∈ L, x ∈ R) →
    ∃ l1 base l2, L = l1 ++ base :: l2 ∧ (∀ x ∈ l1, x ∉ R) ∧ base ∈ R ∧
      Blossom.newLoop R pre L = .ok (pre ++ l1 ++ base :: (R.takeWhile (fun x => x != base)).reverse)
  | [], _, h => by obtain ⟨x, hx, -⟩ := h; simp at hx
  | a :: L, pre, h => by
    by_cases ha : a ∈ R
    · exact ⟨[], a, L, rfl, by simp, ha, by simp [Blossom.newLoop, ha]⟩
    · obtain ⟨l1, base, l2, e, h1, h2, h3⟩ := newLoop_ok R L (pre ++ [a]) (by
        obtain ⟨x, hx, hxR⟩ := h
        rcases List.mem_cons.1 hx with rfl | hx
        · exact absurd hxR ha
        · exact ⟨x, hx, hxR⟩)
      refine ⟨a :: l1, base, l2, by rw [e]; rfl, ?_, h2, ?_⟩
      · intro x hx
        rcases List.mem_cons.1 hx with rfl | hx
        · exact ha
        · exact h1 x hx
      · rw [Blossom.newLoop]; simp only [List.contains_iff_mem, ha, if_false]
        rw [h3]; simp

theorem takeWhile_split {R : List Nat} {base : Nat} (h : base ∈ R) :
    ∃ r, R = R.takeWhile (fun x => x != base) ++ base :: r := by
  induction R with
  | nil => simp at h
  | cons a R ih =>
    by_cases ha : a = base
    · subst ha; exact ⟨R, by simp⟩
    · rcases List.mem_cons.1 h with rfl | h
      · exact absurd rfl ha
      · obtain ⟨r, hr⟩ := ih h
        refine ⟨r, ?_⟩
        have : (a != base) = true := by simpa using ha
        rw [List.takeWhile_cons, if_pos this, List.cons_append, ← hr]

/-- A stem cut at an even place: mates two by two. -/
theorem Stem.mates {p : Pairing} : ∀ {l s : List Nat}, Stem p (l ++ s) → l.length % 2 = 0 → s ≠ [] →
    ∀ x ∈ l, ∃ y ∈ l, p.get x = some y ∨ p.get y = some x
  | [], _, _, _, _ => by simp
  | [a], _, _, h, _ => by simp at h
  | a :: b :: l, s, h, he, hs => by
    cases h with
    | cons x y l' hxy hst =>
      intro z hz
      rcases List.mem_cons.1 hz with rfl | hz
      · exact ⟨b, by simp, .inl hxy⟩
      · rcases List.mem_cons.1 hz with rfl | hz
        · exact ⟨a, by simp, .inr hxy⟩
        · obtain ⟨y, hy, h⟩ := Stem.mates hst (by simp at he; omega) hs z hz
          exact ⟨y, by simp [hy], h⟩

/-! ### Paired lists -/

/-- First and second, third and fourth, … are mates. -/
inductive Paired (p : Pairing) : List Nat → Prop
  | nil : Paired p []
  | cons (x y : Nat) (l : List Nat) : p.get x = some y → p.get y = some x → Paired p l → Paired p (x :: y :: l)

namespace Paired
variable {p : Pairing}

theorem length {l : List Nat} (h : Paired p l) : l.length % 2 = 0 := by
  induction h with
  | nil => rfl
  | cons x y l _ _ _ ih => simp; omega

theorem append {l k : List Nat} (h : Paired p l) (hk : Paired p k) : Paired p (l ++ k) := by
  induction h with
  | nil => exact hk
  | cons x y l h1 h2 _ ih => exact .cons x y _ h1 h2 ih

theorem split : ∀ {l k : List Nat}, Paired p (l ++ k) → l.length % 2 = 0 → Paired p l ∧ Paired p k
  | [], k, h, _ => ⟨.nil, h⟩
  | [a], k, h, h0 => by simp at h0
  | a :: b :: l, k, h, h0 => by
    cases h with
    | cons x y l' h1 h2 h3 =>
      have := split h3 (by simp at h0; omega)
      exact ⟨.cons _ _ _ h1 h2 this.1, this.2⟩

theorem reverse {l : List Nat} (h : Paired p l) : Paired p l.reverse := by
  induction h with
  | nil => exact .nil
  | cons x y l h1 h2 _ ih =>
    rw [List.reverse_cons, List.reverse_cons, List.append_assoc]
    exact ih.append (.cons _ _ _ h2 h1 .nil)

theorem closed {l : List Nat} (h : Paired p l) : ∀ x ∈ l, ∃ y ∈ l, p.get x = some y := by
  induction h with
  | nil => simp
  | cons x y l h1 h2 _ ih =>
    intro z hz
    rcases List.mem_cons.1 hz with rfl | hz
    · exact ⟨y, by simp, h1⟩
    · rcases List.mem_cons.1 hz with rfl | hz
      · exact ⟨x, by simp, h2⟩
      · obtain ⟨w, hw, e⟩ := ih z hz
        exact ⟨w, by simp [hw], e⟩

end Paired

theorem Stem.paired {p : Pairing} (hs : p.Symmetric) : ∀ {l s : List Nat}, Stem p (l ++ s) → l.length % 2 = 0 → s ≠ [] → Paired p l
  | [], _, _, _, _ => .nil
  | [a], _, _, h, _ => by simp at h
  | a :: b :: l, s, h, he, hs' => by
    cases h with
    | cons x y l' hxy hst => exact .cons _ _ _ hxy (hs.get_get hxy) (Stem.paired hs hst (by simp at he; omega) hs')

/-- Everything known about the blossom found by the search. -/
structure Found (g : GraphI) (p : Pairing) (B : List Nat) (base : Nat) (s : List Nat) : Prop where
  flower : Flower g p B base
  cyclic : Cyclic g B
  odd : B.length % 2 = 1
  stem : Stem p (base :: s)
  stem_nodup : (base :: s).Nodup
  stem_chain : (base :: s).IsChain g.Adj
  stem_mem : ∀ x ∈ s, x ∈ g.nodes
  stem_out : ∀ x ∈ s, x ∉ B
  shrinks : 3 ≤ B.length ∨ g.Adj base base
  pairs : ∃ pre suf, B = pre ++ base :: suf ∧ Paired p pre ∧ Paired p suf

theorem FInv.found {g : GraphI} {p : Pairing} {f : Forest} {P : Nat → List Nat} (h : FInv g p f P)
    (hg : g.Lawful) (hp : p.Matches g) {v w : Nat} (hv : (P v).length % 2 = 1) (hw : (P w).length % 2 = 1)
    (ha : g.Adj v w) (hlast : (P v).getLast? = (P w).getLast?) :
    ∃ B base s, Blossom.newLoop (P w) [] (P v) = .ok B ∧ Found g p B base s := by
  have hs := hp.symmetric
  have hv0 : P v ≠ [] := by intro e; rw [e] at hv; simp at hv
  have hw0 : P w ≠ [] := by intro e; rw [e] at hw; simp at hw
  obtain ⟨l1, base, l2, eL, hl1, hbR, eN⟩ := newLoop_ok (P w) (P v) [] (by
    obtain ⟨r, hr⟩ : ∃ r, (P v).getLast? = some r := ⟨_, List.getLast?_eq_some_getLast hv0⟩
    exact ⟨r, List.mem_of_getLast? hr, List.mem_of_getLast? (hlast ▸ hr)⟩)
  obtain ⟨r2, eR⟩ := takeWhile_split hbR
  generalize htw : (P w).takeWhile (fun x => x != base) = tw at eN eR
  -- both rests are the path of the base
  have hb0 : P base ≠ [] := (h.suffix v base (by rw [eL]; simp)).1
  have suf : ∀ x l r, P x = l ++ base :: r → base :: r = P base := by
    intro x l r e
    obtain ⟨-, l', e'⟩ := h.suffix x base (by rw [e]; simp)
    obtain ⟨lb, hlb⟩ := h.head hb0
    have hnd := h.nodup x
    rw [hlb] at e' ⊢
    have := e.symm.trans e'
    rw [e] at hnd
    -- both splits are at the only occurrence of base
    have key : ∀ (l l' r r' : List Nat), (l ++ base :: r).Nodup → l ++ base :: r = l' ++ base :: r' → r = r' := by
      intro l
      induction l with
      | nil =>
        intro l' r r' hn e
        cases l' with
        | nil => simpa using e
        | cons c l' =>
          simp at e
          rw [List.nil_append, List.nodup_cons] at hn
          exact absurd (by rw [e.2]; simp) hn.1
      | cons c l ih =>
        intro l' r r' hn e
        cases l' with
        | nil =>
          simp at e
          rw [List.cons_append, List.nodup_cons] at hn
          exact absurd (by rw [e.1]; simp) hn.1
        | cons c' l' =>
          simp at e
          rw [List.cons_append, List.nodup_cons] at hn
          exact ih l' r r' hn.2 e.2
    rw [key l l' r lb hnd this]
  have s1 := suf v l1 l2 eL
  have s2 := suf w tw r2 eR
  have hr2 : r2 = l2 := by have := s2.trans s1.symm; simpa using this
  subst hr2
  have ndL := h.nodup v
  have ndR := h.nodup w
  rw [eL] at ndL
  rw [eR] at ndR
  have ndL' := List.nodup_append.1 ndL
  have ndR' := List.nodup_append.1 ndR
  have ndb := List.nodup_cons.1 ndL'.2.1
  have htwR : ∀ x ∈ tw, x ∈ P w := fun x hx => by rw [eR]; simp [hx]
  -- the last node before the base is a child of the base
  have child : ∀ x l c r, P x = l ++ c :: (base :: r) → P c = c :: P base := by
    intro x l c r e
    have h1 := suf x (l ++ [c]) r (by simp [e])
    have hc : c ∈ P x := by rw [e]; simp
    obtain ⟨hc0, l', e'⟩ := h.suffix x c hc
    rcases h.shape c hc0 with ⟨ec, -⟩ | ⟨q, hq, ec, -⟩
    · -- c is a root, but base comes after it
      exfalso
      rw [ec] at e'
      have := e.symm.trans e'
      have hnd := h.nodup x
      rw [e] at hnd
      have hlast : (l ++ c :: base :: r).getLast? = some c := by rw [this]; simp
      have hcm : c ∈ base :: r := by
        have e2 : (l ++ c :: base :: r) = (l ++ [c]) ++ (base :: r) := by simp
        rw [e2, List.getLast?_append] at hlast
        have : (base :: r).getLast? = some ((base :: r).getLast (by simp)) := List.getLast?_eq_some_getLast _
        rw [this] at hlast
        simp only [Option.some_or, Option.some.injEq] at hlast
        rw [← hlast]; exact List.getLast_mem _
      have := (List.nodup_append.1 hnd).2.1
      rw [List.nodup_cons] at this
      exact this.1 hcm
    · -- the parent of c is base
      have hcq : P x = l' ++ c :: P q := by rw [e', ec]
      have key : ∀ (l l' r r' : List Nat), (l ++ c :: r).Nodup → l ++ c :: r = l' ++ c :: r' → r = r' := by
        intro l
        induction l with
        | nil =>
          intro l' r r' hn e
          cases l' with
          | nil => simpa using e
          | cons d l' =>
            simp at e
            rw [List.nil_append, List.nodup_cons] at hn
            exact absurd (by rw [e.2]; simp) hn.1
        | cons d l ih =>
          intro l' r r' hn e
          cases l' with
          | nil =>
            simp at e
            rw [List.cons_append, List.nodup_cons] at hn
            exact absurd (by rw [e.1]; simp) hn.1
          | cons c' l' =>
            simp at e
            rw [List.cons_append, List.nodup_cons] at hn
            exact ih l' r r' hn.2 e.2
      have hnd := h.nodup x
      have := e.symm.trans hcq
      rw [e] at hnd
      have h2 := key l l' (base :: r) (P q) hnd this
      rw [ec, ← h2, h1]
  -- the base is even
  have hbe : (P base).length % 2 = 1 := by
    by_contra hc
    have hc : (P base).length % 2 = 0 := by omega
    have lenv : (P v).length = l1.length + (P base).length := by rw [eL, s1]; simp
    have lenw : (P w).length = tw.length + (P base).length := by rw [eR, s1]; simp
    obtain ⟨l1', c, e1⟩ : ∃ l1' c, l1 = l1' ++ [c] := by
      rcases List.eq_nil_or_concat l1 with e | ⟨a, c, e⟩
      · rw [e] at lenv; simp at lenv; omega
      · exact ⟨a, c, by simpa using e⟩
    obtain ⟨tw', d, e2⟩ : ∃ l1' c, tw = l1' ++ [c] := by
      rcases List.eq_nil_or_concat tw with e | ⟨a, c, e⟩
      · rw [e] at lenw; simp at lenw; omega
      · exact ⟨a, c, by simpa using e⟩
    have pc := child v l1' c r2 (by rw [eL, e1]; simp)
    have pd := child w tw' d r2 (by rw [eR, e2]; simp)
    have mc := h.mate_up c base pc hb0 (by rw [pc]; simp; omega)
    have md := h.mate_up d base pd hb0 (by rw [pd]; simp; omega)
    have := hs.get_get mc
    rw [hs.get_get md] at this
    simp at this
    refine hl1 c (by rw [e1]; simp) ?_
    rw [← this]
    exact htwR d (by rw [e2]; simp)
  have he1 : l1.length % 2 = 0 := by
    have lenv : (P v).length = l1.length + (P base).length := by rw [eL, s1]; simp
    omega
  have he2 : tw.length % 2 = 0 := by
    have lenw : (P w).length = tw.length + (P base).length := by rw [eR, s1]; simp
    omega
  have stv := h.stem v hv
  have stw := h.stem w hw
  rw [eL] at stv
  rw [eR] at stw
  have m1 := Stem.mates stv he1 (by simp)
  have m2 := Stem.mates stw he2 (by simp)
  have stb := h.stem base hbe
  rw [← s1] at stb
  have hmemB : ∀ x, x ∈ l1 ++ base :: tw.reverse ↔ x ∈ l1 ∨ x = base ∨ x ∈ tw := by
    intro x; simp
  have chv := h.chain v
  have chw := h.chain w
  rw [eL] at chv
  rw [eR] at chw
  have hchB : (l1 ++ base :: tw.reverse).IsChain g.Adj := by
    rw [List.isChain_split]
    refine ⟨(List.isChain_split.1 chv).1, ?_⟩
    have : base :: tw.reverse = (tw ++ [base]).reverse := by simp
    rw [this, List.isChain_reverse]
    exact ((List.isChain_split.1 chw).1).imp (fun a b hab => hg.adj_symm _ _ hab)
  have hhead : (l1 ++ base :: tw.reverse).head? = some v := by
    obtain ⟨lv, hlv⟩ := h.head hv0
    rw [eL] at hlv
    cases l1 with
    | nil => simp at hlv ⊢; exact hlv.1
    | cons a l => simp at hlv ⊢; exact hlv.1
  have hlastB : (l1 ++ base :: tw.reverse).getLast? = some w := by
    obtain ⟨lw, hlw⟩ := h.head hw0
    rw [eR] at hlw
    cases tw with
    | nil => simp at hlw ⊢; exact hlw.1
    | cons a l =>
      simp at hlw
      have e : l1 ++ base :: (a :: l).reverse = (l1 ++ base :: l.reverse) ++ [w] := by simp [hlw.1]
      rw [e, List.getLast?_concat]
  refine ⟨l1 ++ base :: tw.reverse, base, r2, by rw [eN]; simp, ?_⟩
  refine ⟨⟨?_, ?_, by simp, ?_, ?_⟩, ?_, ?_, stb, ndL'.2.1, ?_, ?_, ?_, ?_, ⟨l1, tw.reverse, rfl, Stem.paired hs stv he1 (by simp),
    (Stem.paired hs stw he2 (by simp)).reverse⟩⟩
  · refine List.nodup_append.2 ⟨ndL'.1, ?_, ?_⟩
    · rw [List.nodup_cons]
      refine ⟨?_, (List.nodup_reverse).2 ndR'.1⟩
      rw [List.mem_reverse]
      intro hm; exact ndR'.2.2 base hm base (by simp) rfl
    · intro x hx y hy e
      subst e
      rcases List.mem_cons.1 hy with rfl | hy
      · exact hl1 x hx hbR
      · exact hl1 x hx (htwR x (List.mem_reverse.1 hy))
  · intro x hx
    rcases (hmemB x).1 hx with hx | rfl | hx
    · exact h.mem_nodes (x := v) (by rw [eL]; simp [hx])
    · exact h.sub _ hb0
    · exact h.mem_nodes (htwR x hx)
  · intro y hy
    have := h.mate_even hbe hy
    have hym : y ∈ r2 := by
      have h1 := s1.trans this.1
      simp at h1
      obtain ⟨ly, hly⟩ := h.head this.2
      rw [h1, hly]; simp
    rw [hmemB]
    rintro (h1 | h1 | h1)
    · exact ndL'.2.2 y h1 y (by simp [hym]) rfl
    · exact hs.ne hy h1.symm
    · exact ndR'.2.2 y h1 y (by simp [hym]) rfl
  · intro x hx hne
    rcases (hmemB x).1 hx with hx | rfl | hx
    · obtain ⟨y, hy, h1 | h1⟩ := m1 x hx
      · exact ⟨y, (hmemB y).2 (.inl hy), h1⟩
      · exact ⟨y, (hmemB y).2 (.inl hy), hs.get_get h1⟩
    · exact absurd rfl hne
    · obtain ⟨y, hy, h1 | h1⟩ := m2 x hx
      · exact ⟨y, (hmemB y).2 (.inr (.inr hy)), h1⟩
      · exact ⟨y, (hmemB y).2 (.inr (.inr hy)), hs.get_get h1⟩
  · unfold Cyclic
    rw [List.isChain_append]
    refine ⟨hchB, hchB, ?_⟩
    intro x hx y hy
    rw [hlastB] at hx; rw [hhead] at hy
    simp at hx hy; subst hx hy
    exact hg.adj_symm _ _ ha
  · simp; omega
  · have := h.chain base
    rw [← s1] at this; exact this
  · intro x hx
    exact h.mem_nodes (x := base) (by rw [← s1]; simp [hx])
  · intro x hx
    rw [hmemB]
    rintro (h1 | h1 | h1)
    · exact ndL'.2.2 x h1 x (by simp [hx]) rfl
    · subst h1; exact ndb.1 hx
    · exact ndR'.2.2 x h1 x (by simp [hx]) rfl
  · by_cases hlen : 3 ≤ (l1 ++ base :: tw.reverse).length
    · exact .inl hlen
    · right
      simp at hlen
      have e1 : l1 = [] := List.length_eq_zero_iff.1 (by omega)
      have e2 : tw = [] := List.length_eq_zero_iff.1 (by omega)
      rw [e1] at hhead; rw [e1, e2] at hlastB
      simp at hhead hlastB
      rw [hhead] at hlastB ⊢
      rw [hlastB] at ha ⊢
      exact ha

end Gamma
