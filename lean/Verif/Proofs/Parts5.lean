import Verif.Proofs.Parts4
import Verif.Proofs.Halt
import Mathlib.Algebra.BigOperators.Group.Finset.Basic
import Mathlib.Algebra.Order.BigOperators.Group.Finset
/-
Runs of `maximum_matching` on a graph and on its parts.
-/
namespace Gamma
open Pairing Blossom

section
variable {g h : GraphI} {p q r : Pairing} {pf : Platform} {S : Nat → Bool}

/-! ### How a run ends -/

/-- The search finds no path. -/
def Done (pf : Platform) (g : GraphI) (r : Pairing) : Prop := ∃ N, augmentingPath pf (fun _ => _root_.id) N g r = .ok none

/-- The run comes to a path it cannot augment along. -/
def Stuck (pf : Platform) (g : GraphI) (p : Pairing) : Prop := ∃ j r path, Leads pf g j p r ∧ Finds pf g r path ∧ path.length % 2 = 1

theorem Done.not_finds (hg : g.Lawful) (he : g.edges.Nodup) (hp : p.Matches g) (h : Done pf g p) {path : List Nat} (hf : Finds pf g p path) : False := by
  obtain ⟨N, e⟩ := h
  obtain ⟨ords, n, ho, e'⟩ := hf
  rcases augmentingPath_stable hg he hp hp rfl e (by simp) ho n with h | h <;> rw [e'] at h <;> cases h

theorem done_or_finds (hg : g.Lawful) (he : g.edges.Nodup) (hp : p.Matches g) (hh : Headroom pf g) : Done pf g p ∨ ∃ path, Finds pf g p path := by
  have h := (augmentingPath_spec (pf := pf) (ords := fun _ => _root_.id) (ords' := fun _ => _root_.id) (fun _ => HashOrder.id_valid)
    (fun _ => HashOrder.id_valid) (g.nodes.length + g.depth + 2) hg he hp hp rfl).1
  cases e : augmentingPath pf (fun _ => _root_.id) (g.nodes.length + g.depth + 2) g p with
  | ok o =>
    cases o with
    | none => exact .inl ⟨_, e⟩
    | some path => exact .inr ⟨path, _, _, fun _ => HashOrder.id_valid, e⟩
  | err x => rw [e] at h; exact h.elim
  | panic m => rw [e] at h; exact absurd hh h.1
  | timeout => rw [e] at h; simp only [APOut] at h; omega

theorem Leads.append {i k : Nat} {r s t : Pairing} (h1 : Leads pf g i r s) (h2 : Leads pf g k s t) : Leads pf g (i + k) r t := by
  induction h1 with
  | none r => simpa using h2
  | round i r r1 s path hf ha _ ih => rw [show i + 1 + k = (i + k) + 1 by omega]; exact .round _ _ _ _ _ hf ha (ih h2)

theorem Leads.det (hg : g.Lawful) (he : g.edges.Nodup) {k : Nat} : ∀ {r s t : Pairing}, r.Matches g → Leads pf g k r s → Leads pf g k r t → s = t := by
  induction k with
  | zero => intro r s t _ h1 h2; cases h1; cases h2; rfl
  | succ k ih =>
    intro r s t hr h1 h2
    cases h1 with
    | round _ _ r1 _ path hf ha h1 =>
    cases h2 with
    | round _ _ r2 _ path' hf' ha' h2 =>
      have := hf.unique hg he hr hr rfl hf'
      subst this
      rw [ha] at ha'; injection ha' with ha'; subst ha'
      exact ih ((Leads.round _ _ _ _ _ hf ha (.none _)).matches_ hg he hr) h1 h2

/-- Where the search finds nothing the run is over. -/
theorem Leads.le_done (hg : g.Lawful) (he : g.edges.Nodup) (hp : p.Matches g) {j k : Nat} {s : Pairing} (h1 : Leads pf g j p q) (hd : Done pf g q)
    (h2 : Leads pf g k p s) : k ≤ j := by
  by_contra hlt
  obtain ⟨t, h3, h4⟩ := h2.split (i := j) (by omega)
  have := h1.det hg he hp h3
  subst this
  obtain ⟨m, hm⟩ : ∃ m, k - j = m + 1 := ⟨k - j - 1, by omega⟩
  rw [hm] at h4
  cases h4 with
  | round _ _ _ _ path hf _ _ => exact hd.not_finds hg he (h1.matches_ hg he hp) hf

theorem Leads.not_stuck (hg : g.Lawful) (he : g.edges.Nodup) (hp : p.Matches g) {j : Nat} (h1 : Leads pf g j p q) (hd : Done pf g q) : ¬ Stuck pf g p := by
  rintro ⟨k, r, path, h2, hf, hodd⟩
  have hle := h1.le_done hg he hp hd h2
  obtain ⟨t, h3, h4⟩ := h1.split hle
  have := h2.det hg he hp h3
  subst this
  have hr := h2.matches_ hg he hp
  cases h5 : j - k with
  | zero => rw [h5] at h4; cases h4; exact hd.not_finds hg he hr hf
  | succ m =>
    rw [h5] at h4
    cases h4 with
    | round _ _ r1 _ path' hf' ha _ =>
      have := hf.unique hg he hr hr rfl hf'
      subst this
      rw [augment_odd _ _ hodd] at ha; cases ha

theorem cert_done (hg : g.Lawful) (he : g.edges.Nodup) (hp : p.Matches g) (hh : Headroom pf g) (hC : ∃ A c, Cert g p A c) : Done pf g p := by
  rcases done_or_finds hg he hp hh with h | ⟨path, hf⟩
  · exact h
  · obtain ⟨-, M, hM, hl⟩ := hf.isPath hg he hp
    obtain ⟨A, c, hC⟩ := hC
    have := hC.maximum hg hp hM
    omega

/-- What a call that returns went through. -/
theorem leads_of_ok (hg : g.Lawful) (he : g.edges.Nodup) (hh : Headroom pf g) (n : Nat) : ∀ {p : Pairing} {ords : List Bool → Nat → HashOrder} {q : Pairing},
    p.Matches g → (∀ l i, (ords l i).Valid) → maximumMatching pf n ords g p = .ok q → ∃ j, Leads pf g j p q ∧ Done pf g q := by
  induction n with
  | zero => intro p ords q _ _ h; simp [maximumMatching] at h
  | succ n ih =>
    intro p ords q hp ho h
    rcases maximumMatching_succ (pf := pf) hg he hp ho n with ⟨h1, hC⟩ | ⟨path, p1, -, -, hf, ha, hp1, h1⟩ | ⟨h1, -⟩ | ⟨m, h1, -⟩ | ⟨h1, -⟩
    · rw [h] at h1; cases h1; exact ⟨0, .none _, cert_done hg he hp hh hC⟩
    · have hf' : Finds pf g p path := ⟨_, _, ho [], hf⟩
      rw [h1, Out.bind_eq_ok] at h
      obtain ⟨p2, e1, e2⟩ := h
      obtain ⟨i, l1, -⟩ := ih hp1 (fun l i => ho (false :: l) i) e1
      obtain ⟨k, l2, hd⟩ := ih (l1.matches_ hg he hp1) (fun l i => ho (true :: l) i) e2
      exact ⟨_, .round _ _ _ _ _ hf' ha (l1.append l2), hd⟩
    · rw [h] at h1; cases h1
    · rw [h] at h1; cases h1
    · rw [h] at h1; cases h1

/-- What a call that panics went through. -/
theorem stuck_of_panic (hg : g.Lawful) (he : g.edges.Nodup) (hh : Headroom pf g) (n : Nat) : ∀ {p : Pairing} {ords : List Bool → Nat → HashOrder} {m : String},
    p.Matches g → (∀ l i, (ords l i).Valid) → maximumMatching pf n ords g p = .panic m → Stuck pf g p := by
  induction n with
  | zero => intro p ords q _ _ h; simp [maximumMatching] at h
  | succ n ih =>
    intro p ords m hp ho h
    rcases maximumMatching_succ (pf := pf) hg he hp ho n with ⟨h1, hC⟩ | ⟨path, p1, -, -, hf, ha, hp1, h1⟩ | ⟨h1, path, -, hf, hodd, -⟩ | ⟨m, -, h1, -⟩ | ⟨h1, -⟩
    · rw [h] at h1; cases h1
    · have hf' : Finds pf g p path := ⟨_, _, ho [], hf⟩
      rw [h1] at h
      rcases maximumMatching_spec (pf := pf) hg he n hp1 (fun l i => ho (false :: l) i) with ⟨p2, e, hp2, hC⟩ | e | ⟨m', e, -⟩ | e
      · rw [e, Out.ok_bind] at h
        obtain ⟨i, l1, -⟩ := leads_of_ok hg he hh n hp1 (fun l i => ho (false :: l) i) e
        obtain ⟨k, r, path', l2, h3, h4⟩ := ih hp2 (fun l i => ho (true :: l) i) h
        exact ⟨_, r, path', .round _ _ _ _ _ hf' ha (l1.append l2), h3, h4⟩
      · obtain ⟨k, r, path', l2, h3, h4⟩ := ih hp1 (fun l i => ho (false :: l) i) e
        exact ⟨_, r, path', .round _ _ _ _ _ hf' ha l2, h3, h4⟩
      · obtain ⟨k, r, path', l2, h3, h4⟩ := ih hp1 (fun l i => ho (false :: l) i) e
        exact ⟨_, r, path', .round _ _ _ _ _ hf' ha l2, h3, h4⟩
      · rw [e] at h; cases h
    · exact ⟨0, p, path, .none _, ⟨_, _, ho [], hf⟩, hodd⟩
    · exact absurd hh h1
    · rw [h] at h1; cases h1

/-- The call returns what the rounds lead to. -/
theorem ok_of_leads (hg : g.Lawful) (he : g.edges.Nodup) (hh : Headroom pf g) (hp : p.Matches g) {ords : List Bool → Nat → HashOrder}
    (ho : ∀ l i, (ords l i).Valid) {j : Nat} (h : Leads pf g j p q) (hd : Done pf g q) {n : Nat} (hn : g.nodes.length + g.depth + j + 3 ≤ n) :
    maximumMatching pf n ords g p = .ok q := by
  have panics : ∀ m, maximumMatching pf n ords g p ≠ .panic m := fun m e => h.not_stuck hg he hp hd (stuck_of_panic hg he hh n hp ho e)
  rcases maximumMatching_spec (pf := pf) hg he n hp ho with ⟨p2, e, -⟩ | e | ⟨m, e, -⟩ | e
  · obtain ⟨i, l, hd'⟩ := leads_of_ok hg he hh n hp ho e
    have h1 := h.le_done hg he hp hd l
    have h2 := l.le_done hg he hp hd' h
    obtain rfl : i = j := by omega
    rw [e, l.det hg he hp h]
  · exact absurd e (panics _)
  · exact absurd e (panics _)
  · obtain ⟨r, hr⟩ := leads_of_timeout (pf := pf) hg he (j + 1) hp ho (by omega) e
    have := h.le_done hg he hp hd hr
    omega

/-- A run that comes to a path it cannot augment along panics. -/
theorem panic_of_stuck (hg : g.Lawful) (he : g.edges.Nodup) (hh : Headroom pf g) (hp : p.Matches g) {ords : List Bool → Nat → HashOrder}
    (ho : ∀ l i, (ords l i).Valid) (h : Stuck pf g p) : ∃ N, ∀ n, N ≤ n → ∃ m, maximumMatching pf n ords g p = .panic m := by
  obtain ⟨j, r, path, h1, hf, hodd⟩ := h
  refine ⟨g.nodes.length + g.depth + j + 3, fun n hn => ?_⟩
  rcases maximumMatching_spec (pf := pf) hg he n hp ho with ⟨p2, e, -⟩ | e | ⟨m, e, -⟩ | e
  · obtain ⟨i, l, hd'⟩ := leads_of_ok hg he hh n hp ho e
    exact (l.not_stuck hg he hp hd' ⟨j, r, path, h1, hf, hodd⟩).elim
  · exact ⟨_, e⟩
  · exact ⟨_, e⟩
  · obtain ⟨s, hs⟩ := leads_of_timeout (pf := pf) hg he (j + 1) hp ho (by omega) e
    obtain ⟨t, h2, h3⟩ := hs.split (i := j) (by omega)
    have := h1.det hg he hp h2
    subst this
    rw [show j + 1 - j = 0 + 1 by omega] at h3
    cases h3 with
    | round _ _ _ _ path' hf' ha _ =>
      have := hf.unique hg he (h1.matches_ hg he hp) (h1.matches_ hg he hp) rfl hf'
      subst this
      rw [augment_odd _ _ hodd] at ha; cases ha

/-! ### On a part -/

/-- `h` and `q` are the part of `g` and `p` on `S`. -/
structure Local (pf : Platform) (S : Nat → Bool) (g h : GraphI) (p q : Pairing) : Prop where
  lawful : g.Lawful
  lawful' : h.Lawful
  order : g.InEdgeOrder
  order' : h.InEdgeOrder
  nodup : g.edges.Nodup
  room : Headroom pf g
  part : GraphI.PartOn S g h
  mat : p.Matches g
  mat' : q.Matches h
  sub : Pairing.Sub S g p q

namespace Local

theorem closed (l : Local pf S g h p q) : g.ClosedOn S := by
  intro u v ha
  rcases (l.order.adj l.lawful).1 ha with h | h
  · exact l.part.closed _ h
  · exact (l.part.closed _ h).symm

theorem along (l : Local pf S g h p q) : GraphI.Along _root_.id (g.part S) h ∧ List.Forall₂ (EdgeRen _root_.id) (g.part S).edges h.edges :=
  along_of_edges Function.injective_id (GraphI.part_lawful l.lawful l.closed) l.lawful' (GraphI.part_order l.lawful l.order l.closed) l.order'
    (by rw [l.part.nodes]; simp [GraphI.part]) (by rw [l.part.edges]; simp [GraphI.part])

theorem nodup' (l : Local pf S g h p q) : h.edges.Nodup := by rw [l.part.edges]; exact l.nodup.filter _

theorem room' (l : Local pf S g h p q) : Headroom pf h := by
  have ha := l.along.1
  have hd : h.depth = (g.part S).depth := by
    unfold GraphI.depth GraphI.loops
    rw [ha.nodes, List.map_id]
    congr 1
    refine List.countP_congr (fun v hv => ?_)
    have := ha.nbr v hv
    simp at this
    rw [this]
  intro v hv
  rw [hd]
  exact GraphI.part_headroom l.room v (by rw [ha.nodes, List.map_id] at hv; exact hv)

theorem mem (l : Local pf S g h p q) {v : Nat} : v ∈ h.nodes ↔ v ∈ g.nodes ∧ S v = true := by rw [l.part.nodes, List.mem_filter]

theorem adj (l : Local pf S g h p q) {u v : Nat} : h.Adj u v ↔ g.Adj u v ∧ S u = true := by
  rw [← GraphI.part_adj l.lawful]; exact l.along.1.adj

theorem matPart (l : Local pf S g h p q) : q.Matches (g.part S) :=
  ⟨l.mat'.symmetric, fun x y e => (GraphI.part_adj l.lawful).2 (l.adj.1 (l.mat'.adj x y e))⟩

theorem search (l : Local pf S g h p q) (n : Nat) : PartOut S (augmentingPath pf (fun _ => _root_.id) n g p) (augmentingPath pf (fun _ => _root_.id) n h q) := by
  have h1 := augmentingPath_part (pf := pf) n l.lawful l.order l.nodup l.closed l.mat l.matPart l.sub l.room
  have h2 := augmentingPath_ren (pf := pf) (ords := fun _ => _root_.id) (ords' := fun _ => _root_.id) (fun _ => HashOrder.id_valid)
    (fun _ => HashOrder.id_valid) n l.along.1 l.along.2 (l.nodup.filter _) l.nodup' l.matPart l.mat' (fun v _ => by simp)
    (GraphI.part_headroom l.room) l.room'
  rw [h2]
  match e : augmentingPath pf (fun _ => _root_.id) n g p, h1 with
  | .ok none, h1 => rw [h1]; rfl
  | .ok (some path), h1 =>
    rcases h1 with ⟨a, b⟩ | a
    · rw [b]; exact .inl ⟨a, by simp [Out.ren]⟩
    · exact .inr a
  | .err _, _ => trivial
  | .panic _, _ => trivial
  | .timeout, _ => trivial

theorem done (l : Local pf S g h p q) (hd : Done pf g p) : Done pf h q := by
  obtain ⟨N, e⟩ := hd
  have := l.search N
  rw [e] at this
  exact ⟨N, this⟩

theorem finds (l : Local pf S g h p q) {path : List Nat} (hf : Finds pf g p path) :
    ((∀ x ∈ path, S x = true) ∧ Finds pf h q path) ∨ ∀ x ∈ path, S x = false := by
  obtain ⟨N, e⟩ := hf.ident l.lawful l.nodup l.mat l.mat rfl
  have := l.search N
  rw [e] at this
  rcases this with ⟨a, b⟩ | a
  · exact .inl ⟨a, _, N, fun _ => HashOrder.id_valid, b⟩
  · exact .inr a

theorem get_none {g : GraphI} {r : Pairing} (hg : g.Lawful) (hr : r.Matches g) {x : Nat} (hx : x ∉ g.nodes) : r.get x = none := by
  cases e : r.get x with
  | none => rfl
  | some y => exact absurd (hr.mem_left hg e) hx

/-- A round inside the part. -/
theorem inside (l : Local pf S g h p q) {path : List Nat} {p1 : Pairing} (hf : Finds pf g p path) (ha : p.augment path = .ok p1)
    (hf' : Finds pf h q path) (hS : ∀ x ∈ path, S x = true) : ∃ q1, q.augment path = .ok q1 ∧ Local pf S g h p1 q1 := by
  have hp1 := (Leads.round _ _ _ _ _ hf ha (.none _)).matches_ l.lawful l.nodup l.mat
  have hpath := (hf.isPath l.lawful l.nodup l.mat).1
  have hev : path.length % 2 = 0 := by
    rcases Nat.mod_two_eq_zero_or_one path.length with h0 | h0
    · exact h0
    · rw [augment_odd _ _ h0] at ha; cases ha
  obtain ⟨p', e1, s1, a1, b1⟩ := augment_spec l.mat.symmetric path hpath.nodup hev
  rw [ha] at e1; injection e1 with e1; subst e1
  obtain ⟨q1, e2, s2, a2, b2⟩ := augment_spec l.mat'.symmetric path hpath.nodup hev
  refine ⟨q1, e2, { l with mat := hp1, mat' := (Leads.round _ _ _ _ _ hf' e2 (.none _)).matches_ l.lawful' l.nodup' l.mat', sub := ?_ }⟩
  intro v hv hSv
  by_cases hx : v ∈ path
  · obtain ⟨i, hi, rfl⟩ := List.getElem_of_mem hx
    rcases Nat.mod_two_eq_zero_or_one i with h0 | h0
    · have g1 : path[2 * (i / 2)]? = some path[i] := by
        rw [show 2 * (i / 2) = i by omega, List.getElem?_eq_getElem hi]
      have g2 : path[2 * (i / 2) + 1]? = some path[i + 1] := by
        rw [show 2 * (i / 2) + 1 = i + 1 by omega, List.getElem?_eq_getElem (by omega)]
      rw [a1 _ _ _ g1 g2, a2 _ _ _ g1 g2]
    · obtain ⟨j, rfl⟩ : ∃ j, i = j + 1 := ⟨i - 1, by omega⟩
      have g1 : path[2 * (j / 2)]? = some path[j] := by
        rw [show 2 * (j / 2) = j by omega, List.getElem?_eq_getElem]
      have g2 : path[2 * (j / 2) + 1]? = some path[j + 1] := by
        rw [show 2 * (j / 2) + 1 = j + 1 by omega, List.getElem?_eq_getElem hi]
      rw [s1.get_get (a1 _ _ _ g1 g2), s2.get_get (a2 _ _ _ g1 g2)]
  · rw [b1 v hx, b2 v hx, l.sub v hv hSv]

/-- A round outside the part. -/
theorem outside (l : Local pf S g h p q) {path : List Nat} {p1 : Pairing} (hf : Finds pf g p path) (ha : p.augment path = .ok p1)
    (hS : ∀ x ∈ path, S x = false) : Local pf S g h p1 q := by
  have hp1 := (Leads.round _ _ _ _ _ hf ha (.none _)).matches_ l.lawful l.nodup l.mat
  have hpath := (hf.isPath l.lawful l.nodup l.mat).1
  have hev : path.length % 2 = 0 := by
    rcases Nat.mod_two_eq_zero_or_one path.length with h0 | h0
    · exact h0
    · rw [augment_odd _ _ h0] at ha; cases ha
  obtain ⟨p', e1, s1, a1, b1⟩ := augment_spec l.mat.symmetric path hpath.nodup hev
  rw [ha] at e1; injection e1 with e1; subst e1
  refine { l with mat := hp1, sub := ?_ }
  intro v hv hSv
  have hx : v ∉ path := fun hx => by rw [hS v hx] at hSv; cases hSv
  rw [b1 v hx, l.sub v hv hSv]
  cases e : p.get v with
  | none => rfl
  | some y =>
    have hy : y ∉ path := fun hy => by
      have h1 := l.closed v y (l.mat.adj v y (mate_eq_ok.2 e))
      rw [hSv, hS y hy] at h1; cases h1
    simp [hy]

end Local

/-- A family of parts: the nodes are told apart by the labels `c`. -/
def LocalAll (pf : Platform) (c : Nat → Nat) (g : GraphI) (hs : Nat → GraphI) (p : Pairing) (qs : Nat → Pairing) : Prop :=
  ∀ v ∈ g.nodes, Local pf (fun x => c x == c v) g (hs (c v)) p (qs (c v))

section
variable {c : Nat → Nat} {hs : Nat → GraphI} {qs : Nat → Pairing}

/-- A path lies in one part. -/
theorem LocalAll.finds (hg : g.Lawful) (he : g.edges.Nodup) (hp : p.Matches g) (l : LocalAll pf c g hs p qs) {path : List Nat}
    (hf : Finds pf g p path) : ∃ v ∈ g.nodes, (∀ x ∈ path, c x = c v) ∧ Finds pf (hs (c v)) (qs (c v)) path := by
  obtain ⟨hpath, -⟩ := hf.isPath hg he hp
  obtain ⟨x, t, rfl⟩ := List.exists_cons_of_ne_nil hpath.ne
  have hx := hpath.mem x (by simp)
  rcases (l x hx).finds hf with ⟨a, b⟩ | a
  · exact ⟨x, hx, fun y hy => by simpa using a y hy, b⟩
  · have := a x (by simp)
    simp at this

/-- The rounds of a run, shared out among the parts. -/
theorem LocalAll.leads (hg : g.Lawful) (he : g.edges.Nodup) {j : Nat} {r : Pairing} (h : Leads pf g j p r) : ∀ {qs : Nat → Pairing}, p.Matches g →
    LocalAll pf c g hs p qs → ∃ (i : Nat → Nat) (rs : Nat → Pairing), LocalAll pf c g hs r rs ∧
      (∀ v ∈ g.nodes, Leads pf (hs (c v)) (i (c v)) (qs (c v)) (rs (c v))) ∧ ∑ k ∈ g.nodes.toFinset.image c, i k = j := by
  induction h with
  | none r => intro qs hp l; exact ⟨fun _ => 0, qs, l, fun v _ => .none _, by simp⟩
  | round j p p1 r path hf ha _ ih =>
    intro qs hp l
    have hp1 := (Leads.round _ _ _ _ _ hf ha (.none _)).matches_ hg he hp
    obtain ⟨w, hw, h1, h2⟩ := l.finds hg he hp hf
    obtain ⟨q1, e1, l1⟩ := (l w hw).inside hf ha h2 (fun x hx => by simpa using h1 x hx)
    have l' : LocalAll pf c g hs p1 (Function.update qs (c w) q1) := by
      intro v hv
      by_cases hvw : c v = c w
      · rw [hvw, Function.update_self]; exact l1
      · rw [Function.update_of_ne hvw]
        exact (l v hv).outside hf ha (fun x hx => by rw [h1 x hx]; simpa using fun h => hvw h.symm)
    obtain ⟨i, rs, a1, a2, a3⟩ := ih hp1 l'
    refine ⟨Function.update i (c w) (i (c w) + 1), rs, a1, fun v hv => ?_, ?_⟩
    · have := a2 v hv
      by_cases hvw : c v = c w
      · rw [hvw, Function.update_self] at this
        rw [hvw, Function.update_self]
        exact .round _ _ _ _ _ h2 e1 this
      · rw [Function.update_of_ne hvw] at this
        rw [Function.update_of_ne hvw]
        exact this
    · have hm : c w ∈ g.nodes.toFinset.image c := Finset.mem_image_of_mem _ (List.mem_toFinset.2 hw)
      rw [← a3, ← Finset.add_sum_erase _ _ hm, ← Finset.add_sum_erase _ i hm, Function.update_self]
      rw [Finset.sum_congr rfl (fun k hk => Function.update_of_ne (Finset.ne_of_mem_erase hk) _ _)]
      omega

/-- A run goes on, ends well or panics. -/
theorem run_cases (hg : g.Lawful) (he : g.edges.Nodup) (hh : Headroom pf g) (hp : p.Matches g) (j : Nat) :
    (∃ r, Leads pf g j p r) ∨ (∃ i q, Leads pf g i p q ∧ Done pf g q) ∨ Stuck pf g p := by
  induction j with
  | zero => exact .inl ⟨p, .none _⟩
  | succ j ih =>
    rcases ih with ⟨r, hr⟩ | h
    · have hm := hr.matches_ hg he hp
      rcases done_or_finds hg he hm hh with hd | ⟨path, hf⟩
      · exact .inr (.inl ⟨j, r, hr, hd⟩)
      · rcases Nat.mod_two_eq_zero_or_one path.length with h0 | h0
        · have hpath := (hf.isPath hg he hm).1
          obtain ⟨r1, e, -⟩ := augment_matches hg hm hpath.nodup hpath.chain h0
          exact .inl ⟨r1, hr.snoc hf e⟩
        · exact .inr (.inr ⟨j, r, path, hr, hf, h0⟩)
    · exact .inr h

/-- A run that goes on for ever never ends. -/
theorem timeout_of_leads (hg : g.Lawful) (he : g.edges.Nodup) (hh : Headroom pf g) (hp : p.Matches g) (h : ∀ j, ∃ r, Leads pf g j p r)
    {ords : List Bool → Nat → HashOrder} (ho : ∀ l i, (ords l i).Valid) (n : Nat) : maximumMatching pf n ords g p = .timeout := by
  have panics : ∀ m, maximumMatching pf n ords g p ≠ .panic m := by
    intro m e
    obtain ⟨j, r, path, l, hf, hodd⟩ := stuck_of_panic hg he hh n hp ho e
    obtain ⟨s, hs⟩ := h (j + 1)
    obtain ⟨t, h2, h3⟩ := hs.split (i := j) (by omega)
    have := l.det hg he hp h2
    subst this
    rw [show j + 1 - j = 0 + 1 by omega] at h3
    cases h3 with
    | round _ _ _ _ path' hf' ha _ =>
      have := hf.unique hg he (l.matches_ hg he hp) (l.matches_ hg he hp) rfl hf'
      subst this
      rw [augment_odd _ _ hodd] at ha; cases ha
  rcases maximumMatching_spec (pf := pf) hg he n hp ho with ⟨p2, e, -⟩ | e | ⟨m, e, -⟩ | e
  · obtain ⟨i, l, hd'⟩ := leads_of_ok hg he hh n hp ho e
    obtain ⟨s, hs⟩ := h (i + 1)
    have := l.le_done hg he hp hd' hs
    omega
  · exact absurd e (panics _)
  · exact absurd e (panics _)
  · exact e

/-- A run that goes on for ever does so in a part. -/
theorem LocalAll.forever (hg : g.Lawful) (he : g.edges.Nodup) (hp : p.Matches g) (l : LocalAll pf c g hs p qs)
    (h : ∀ j, ∃ r, Leads pf g j p r) : ∃ v ∈ g.nodes, ∀ j, ∃ r, Leads pf (hs (c v)) j (qs (c v)) r := by
  classical
  by_contra hno
  push Not at hno
  have hb : ∀ k, ∃ B, k ∈ g.nodes.toFinset.image c → ∀ r, ¬ Leads pf (hs k) B (qs k) r := by
    intro k
    by_cases hk : k ∈ g.nodes.toFinset.image c
    · obtain ⟨v, hv, rfl⟩ := Finset.mem_image.1 hk
      obtain ⟨B, hB⟩ := hno v (List.mem_toFinset.1 hv)
      exact ⟨B, fun _ => hB⟩
    · exact ⟨0, fun h => absurd h hk⟩
  choose B hB using hb
  obtain ⟨r, hr⟩ := h (∑ k ∈ g.nodes.toFinset.image c, B k + 1)
  obtain ⟨i, rs, a1, a2, a3⟩ := LocalAll.leads hg he hr hp l
  have : ∑ k ∈ g.nodes.toFinset.image c, i k ≤ ∑ k ∈ g.nodes.toFinset.image c, B k := by
    refine Finset.sum_le_sum (fun k hk => ?_)
    by_contra hlt
    obtain ⟨v, hv, rfl⟩ := Finset.mem_image.1 hk
    obtain ⟨s, hs, -⟩ := (a2 v (List.mem_toFinset.1 hv)).split (i := B (c v)) (by omega)
    exact hB _ hk s hs
  omega

/-- A run that panics panics in a part. -/
theorem LocalAll.stuck (hg : g.Lawful) (he : g.edges.Nodup) (hp : p.Matches g) (l : LocalAll pf c g hs p qs) (h : Stuck pf g p) :
    ∃ v ∈ g.nodes, Stuck pf (hs (c v)) (qs (c v)) := by
  obtain ⟨j, r, path, h1, hf, hodd⟩ := h
  obtain ⟨i, rs, a1, a2, -⟩ := LocalAll.leads hg he h1 hp l
  obtain ⟨v, hv, -, hf'⟩ := a1.finds hg he (h1.matches_ hg he hp) hf
  exact ⟨v, hv, _, _, path, a2 v hv, hf', hodd⟩

end
end
end Gamma
