import Verif.Proofs.Isomorphic
import Verif.Proofs.Halt
/-
The search on a part of a graph that no edge leaves: what it does there does not depend on the rest.
-/
namespace Gamma
open Pairing Blossom DefaultGraph

/-- `h` is the part of `g` on `S`, and no edge leaves it: what a search looks at. -/
structure GraphI.Sub (S : Nat → Bool) (g h : GraphI) : Prop where
  lawful : g.Lawful
  lawful' : h.Lawful
  nodes : h.nodes = g.nodes.filter S
  nbr : ∀ v ∈ h.nodes, h.nbr v = g.nbr v
  closed : ∀ u v, g.Adj u v → S u = S v

/-- `q` is the part of `p` on `S`. -/
def Pairing.Sub (S : Nat → Bool) (g : GraphI) (p q : Pairing) : Prop := ∀ v ∈ g.nodes, S v = true → q.get v = p.get v

/-- The part of a forest on `S`. -/
structure FPart (S : Nat → Bool) (f f' : Forest) : Prop where
  nodes : f'.nodes = f.nodes.filter S
  get : ∀ x, S x = true → HMap.get f'.parents x = HMap.get f.parents x
  out : ∀ x, S x = false → HMap.get f'.parents x = none

/-- Two markers that cannot be told apart on `S`. -/
structure MPart (S : Nat → Bool) (m m' : Marker) : Prop where
  edge : ∀ u w, S u = true → S w = true → m'.hasEdge u w = m.hasEdge u w
  node : ∀ u, S u = true → m'.hasNode u = m.hasNode u

/-- The paths of a forest, on `S`. -/
def PS (S : Nat → Bool) (P : Nat → List Nat) (x : Nat) : List Nat := if S x = true then P x else []

section
variable {S : Nat → Bool} {g h : GraphI} {p q : Pairing} {f f' : Forest} {P : Nat → List Nat} {m m' : Marker} {fuel0 : Nat}

theorem find?_congr' {l : List Nat} {a b : Nat → Bool} (h : ∀ x ∈ l, a x = b x) : l.find? a = l.find? b := by
  induction l with
  | nil => rfl
  | cons x l ih =>
    rw [List.find?_cons, List.find?_cons, h x (by simp), ih (fun y hy => h y (by simp [hy]))]

theorem PS_in {x : Nat} (hx : S x = true) : PS S P x = P x := if_pos hx
theorem PS_out {x : Nat} (hx : S x = false) : PS S P x = [] := by unfold PS; rw [hx]; rfl

theorem PS_ne {x : Nat} (hx : PS S P x ≠ []) : S x = true ∧ P x ≠ [] := by
  cases hs : S x with
  | true => rw [PS_in hs] at hx; exact ⟨rfl, hx⟩
  | false => exact absurd (PS_out hs) hx

theorem PS_odd {x : Nat} (hx : (PS S P x).length % 2 = 1) : S x = true ∧ (P x).length % 2 = 1 := by
  have := (PS_ne (S := S) (P := P) (x := x) (by intro e; rw [e] at hx; simp at hx)).1
  rw [PS_in this] at hx
  exact ⟨this, hx⟩

namespace GraphI.Sub

theorem mem (s : GraphI.Sub S g h) {v : Nat} : v ∈ h.nodes ↔ v ∈ g.nodes ∧ S v = true := by rw [s.nodes, List.mem_filter]

theorem adj (s : GraphI.Sub S g h) {u v : Nat} (hu : S u = true) : h.Adj u v ↔ g.Adj u v := by
  constructor
  · intro a
    have hu := s.lawful'.adj_src a
    rw [← GraphI.mem_nbr, s.nbr u hu] at a
    exact GraphI.mem_nbr.1 a
  · intro a
    have := s.mem.2 ⟨s.lawful.adj_src a, hu⟩
    rw [← GraphI.mem_nbr, ← s.nbr u this] at a
    exact GraphI.mem_nbr.1 a

theorem adj' (s : GraphI.Sub S g h) {u v : Nat} : h.Adj u v ↔ g.Adj u v ∧ S u = true :=
  ⟨fun a => have hu := (s.mem.1 (s.lawful'.adj_src a)).2; ⟨(s.adj hu).1 a, hu⟩, fun ⟨a, hu⟩ => (s.adj hu).2 a⟩

theorem hasEdge (s : GraphI.Sub S g h) {u v : Nat} (hu : u ∈ h.nodes) (hv : v ∈ h.nodes) : h.hasEdge u v = g.hasEdge u v := by
  have hu' := s.mem.1 hu
  obtain ⟨b, e, hb⟩ := s.lawful'.hasEdge_ok u v hu hv
  obtain ⟨c, e', hc⟩ := s.lawful.hasEdge_ok u v hu'.1 (s.mem.1 hv).1
  rw [e, e']
  congr 1
  rw [Bool.eq_iff_iff, hb, hc, s.adj hu'.2]

end GraphI.Sub

/-- A pairing of `h` that is a part of one of `g` has no other pairs. -/
theorem Pairing.Sub.get_iff (s : GraphI.Sub S g h) (hp : p.Matches g) (hq : q.Matches h) (hpq : Pairing.Sub S g p q) {x y : Nat} :
    q.get x = some y ↔ p.get x = some y ∧ S x = true := by
  constructor
  · intro e
    have := s.mem.1 (hq.mem_left s.lawful' e)
    rw [hpq x this.1 this.2] at e
    exact ⟨e, this.2⟩
  · rintro ⟨e, hx⟩
    rw [hpq x (hp.mem_left s.lawful e) hx]
    exact e

/-- The forest on a part is a forest of the part. -/
theorem FInv.part (s : GraphI.Sub S g h) (hp : p.Matches g) (hpq : Pairing.Sub S g p q) (hF : FInv g p f P) (hf : FPart S f f') :
    FInv h q f' (PS S P) := by
  have hg := s.lawful
  have up : ∀ x y, g.Adj x y → (S x = true ↔ S y = true) := fun x y a => by rw [s.closed x y a]
  have pin : ∀ x, S x = true → P x ≠ [] → q.get x = p.get x := fun x hx h0 => hpq x (hF.sub x h0) hx
  -- the parent of a node of `S` is in `S`
  have par : ∀ x y, S x = true → P y ≠ [] → P x = x :: P y → S y = true := by
    intro x y hx hy e
    have hx0 : P x ≠ [] := by rw [e]; simp
    rcases hF.shape x hx0 with ⟨e', -⟩ | ⟨z, hz, e', a⟩
    · rw [e] at e'; simp at e'; exact absurd e' hy
    · rw [e] at e'
      simp only [List.cons.injEq, true_and] at e'
      obtain ⟨l, hl⟩ := hF.head hy
      obtain ⟨l', hl'⟩ := hF.head hz
      rw [hl, hl'] at e'
      simp only [List.cons.injEq] at e'
      rw [e'.1]; exact (up x z a).1 hx
  refine ⟨?_, ?_, ?_, ?_, ?_, ?_, ?_, ?_⟩
  · intro x
    cases hx : S x with
    | true => rw [hf.get x hx, PS_in hx, hF.get x]
    | false => rw [hf.out x hx, PS_out hx]; rfl
  · intro x
    rw [hf.nodes, List.mem_filter, hF.nodes]
    cases hx : S x with
    | true => rw [PS_in hx]; simp
    | false => rw [PS_out hx]; simp
  · intro x hx
    obtain ⟨h1, h2⟩ := PS_ne hx
    exact s.mem.2 ⟨hF.sub x h2, h1⟩
  · intro x hx
    obtain ⟨h1, h2⟩ := PS_ne hx
    rw [PS_in h1, pin x h1 h2]
    rcases hF.shape x h2 with h3 | ⟨y, hy, e, a⟩
    · exact .inl h3
    · have hy' := (up x y a).1 h1
      refine .inr ⟨y, by rw [PS_in hy']; exact hy, by rw [PS_in hy']; exact e, (s.adj h1).2 a⟩
  · intro x
    cases hx : S x with
    | true => rw [PS_in hx]; exact hF.nodup x
    | false => rw [PS_out hx]; simp
  · intro x y e hy hodd
    obtain ⟨hy1, hy2⟩ := PS_ne hy
    obtain ⟨hx1, hx2⟩ := PS_odd hodd
    rw [PS_in hx1, PS_in hy1] at e
    rw [pin x hx1 (by rw [e]; simp)]
    exact hF.mate_up x y e hy2 hx2
  · intro x hev hx
    obtain ⟨h1, h2⟩ := PS_ne hx
    rw [PS_in h1] at hev ⊢
    obtain ⟨y, e1, e2⟩ := hF.odd_child x hev h2
    refine ⟨y, by rw [pin x h1 h2]; exact e1, ?_⟩
    rw [PS_in ((up x y (hp.adj' e1)).1 h1)]; exact e2
  · intro x hx hn
    obtain ⟨h1, h2⟩ := s.mem.1 hx
    rw [hpq x h1 h2] at hn
    rw [PS_in h2]
    exact hF.roots x h1 hn

theorem MPart.markEdge (hm : MPart S m m') {v w : Nat} (hv : S v = true) (hw : S w = true) (hf : m.hasEdge v w = false) :
    ∃ m1 m1', m.markEdge v w = .ok m1 ∧ m'.markEdge v w = .ok m1' ∧ MPart S m1 m1' ∧ m1.nodes = m.nodes ∧ m1'.nodes = m'.nodes ∧
      ∀ a b, m1.hasEdge a b = true ↔ m.hasEdge a b = true ∨ (a = v ∧ b = w) ∨ (a = w ∧ b = v) := by
  obtain ⟨m1, e1, n1, h1⟩ := Marker.markEdge_ok hf
  obtain ⟨m1', e1', n1', h1'⟩ := Marker.markEdge_ok (m := m') (s := v) (t := w) (by rw [hm.edge v w hv hw]; exact hf)
  refine ⟨m1, m1', e1, e1', ⟨fun a b ha hb => ?_, fun a ha => ?_⟩, n1, n1', h1⟩
  · rw [Bool.eq_iff_iff, h1, h1', hm.edge a b ha hb]
  · have := hm.node a ha
    unfold Marker.hasNode at this ⊢
    rw [n1, n1']; exact this

theorem MPart.markOut (hm : MPart S m m') {v w : Nat} (hv : S v = false) (hw : S w = false) (hf : m.hasEdge v w = false) :
    ∃ m1, m.markEdge v w = .ok m1 ∧ MPart S m1 m' ∧ m1.nodes = m.nodes ∧
      ∀ a b, m1.hasEdge a b = true ↔ m.hasEdge a b = true ∨ (a = v ∧ b = w) ∨ (a = w ∧ b = v) := by
  obtain ⟨m1, e1, n1, h1⟩ := Marker.markEdge_ok hf
  refine ⟨m1, e1, ⟨fun a b ha hb => ?_, fun a ha => ?_⟩, n1, h1⟩
  · rw [Bool.eq_iff_iff, h1, hm.edge a b ha hb]
    refine ⟨.inl, ?_⟩
    rintro (h | ⟨rfl, rfl⟩ | ⟨rfl, rfl⟩)
    · exact h
    · rw [hv] at ha; cases ha
    · rw [hv] at hb; cases hb
  · have := hm.node a ha
    unfold Marker.hasNode at this ⊢
    rw [n1]; exact this

/-- What `Forest::add_edge` does. -/
theorem Forest.addEdge_inv {f f1 : Forest} {u v : Nat} (e : f.addEdge u v = .ok f1) :
    ∃ x, HMap.get f.parents u = some x ∧ HMap.get f.parents v = none ∧
      f1 = { parents := f.parents.insert v ⟨some u, !x.even⟩, nodes := f.nodes ++ [v] } := by
  unfold Forest.addEdge at e
  split at e
  · cases e
  · rename_i x hx
    split at e
    · rename_i hv; injection e with e; exact ⟨x, hx, hv, e.symm⟩
    · cases e

theorem FPart.addEdge (hf : FPart S f f') {u v : Nat} (hu : S u = true) (hv : S v = true) {f1 : Forest} (e : f.addEdge u v = .ok f1) :
    ∃ f1', f'.addEdge u v = .ok f1' ∧ FPart S f1 f1' := by
  obtain ⟨x, h1, h2, rfl⟩ := Forest.addEdge_inv e
  refine ⟨{ parents := f'.parents.insert v ⟨some u, !x.even⟩, nodes := f'.nodes ++ [v] }, ?_, ?_, ?_, ?_⟩
  · unfold Forest.addEdge
    rw [hf.get u hu, h1]
    simp only
    rw [hf.get v hv, h2]
  · simp [hf.nodes, hv]
  · intro y hy
    simp only [HMap.get_insert, hf.get y hy]
  · intro y hy
    simp only [HMap.get_insert, hf.out y hy]
    have : y ≠ v := by rintro rfl; rw [hv] at hy; cases hy
    simp [this]

theorem FPart.addOut (hf : FPart S f f') {u v : Nat} (hv : S v = false) {f1 : Forest} (e : f.addEdge u v = .ok f1) : FPart S f1 f' := by
  obtain ⟨x, h1, h2, rfl⟩ := Forest.addEdge_inv e
  refine ⟨?_, ?_, hf.out⟩
  · simp [hf.nodes, hv]
  · intro y hy
    have : y ≠ v := by rintro rfl; rw [hv] at hy; cases hy
    simp only [HMap.get_insert, hf.get y hy, this, if_false]

/-- Marking an edge to an odd node keeps the state of the search intact. -/
theorem SInv.mark (hI : SInv g p f P m) {m1 : Marker} {v w : Nat} (hn1 : m1.nodes = m.nodes)
    (he1 : ∀ a b, m1.hasEdge a b = true ↔ m.hasEdge a b = true ∨ (a = v ∧ b = w) ∨ (a = w ∧ b = v)) (hv : (P v).length % 2 = 1)
    {f2 : Forest} {P2 : Nat → List Nat} (hF2 : FInv g p f2 P2) (hold : ∀ x, P x ≠ [] → P2 x = P x) (hodd : OddN P2 w) :
    SInv g p f2 P2 m1 ∧ (P2 v).length % 2 = 1 := by
  have hv0 : P v ≠ [] := by intro e; rw [e] at hv; simp at hv
  have oldOdd : ∀ x, OddN P x → OddN P2 x := by
    intro x hx
    unfold OddN; rw [hold x hx.1]; exact hx
  refine ⟨⟨hF2, fun u z huz => (he1 u z).2 (.inl (hI.pairs u z huz)), ?_, ?_⟩, by rw [hold v hv0]; exact hv⟩
  · intro u z huz
    rcases (he1 u z).1 huz with h | ⟨rfl, rfl⟩ | ⟨rfl, rfl⟩
    · rcases hI.edges u z h with h | h | h
      · exact .inl h
      · exact .inr (.inl (oldOdd _ h))
      · exact .inr (.inr (oldOdd _ h))
    · exact .inr (.inl hodd)
    · exact .inr (.inr hodd)
  · intro u hu z haz
    have hu' : m.hasNode u = true := by
      unfold Marker.hasNode at hu ⊢; rw [← hn1]; exact hu
    exact (he1 u z).2 (.inl (hI.done u hu' z haz))

/-- The continuation of `apTrace`. -/
def evT (v : Nat) (pw : List Nat) (f : Forest) : Out (Option (Nat × List Nat × Forest)) := .ok (some (v, pw, f))

/-- The inner loop at a node of `S`: the same on the graph and on its part. -/
theorem apInner_in (s : GraphI.Sub S g h) (hp : p.Matches g) (hpq : Pairing.Sub S g p q) {v : Nat} (hS : S v = true) (n : Nat) :
    ∀ (f f' : Forest) (P : Nat → List Nat) (m m' : Marker), SInv g p f P m → FPart S f f' → MPart S m m' → (P v).length % 2 = 1 →
    (∃ f1 f1' P1 m1 m1', apInnerG evT fuel0 g p v n f m = .ok (.fall (f1, m1)) ∧
      apInnerG evT fuel0 h q v n f' m' = .ok (.fall (f1', m1')) ∧ SInv g p f1 P1 m1 ∧ FPart S f1 f1' ∧ MPart S m1 m1' ∧
      m1.nodes = m.nodes ∧ m1'.nodes = m'.nodes ∧ (∀ w, g.Adj v w → m1.hasEdge v w = true)) ∨
    (∃ f1 f1' P1 w, EvenEdge g p f1 P1 v w ∧ FPart S f1 f1' ∧
      apInnerG evT fuel0 g p v n f m = .ok (.ret (some (v, P1 w, f1))) ∧
      apInnerG evT fuel0 h q v n f' m' = .ok (.ret (some (v, P1 w, f1')))) ∨
    apInnerG evT fuel0 g p v n f m = .timeout := by
  have hg := s.lawful
  induction n with
  | zero => intro f f' P m m' _ _ _ _; exact .inr (.inr rfl)
  | succ n ih =>
    intro f f' P m m' hI hfp hmp hv
    have hF := hI.forest
    have hF' := hF.part s hp hpq hfp
    have hv0 : P v ≠ [] := by intro e; rw [e] at hv; simp at hv
    have hvn : v ∈ g.nodes := hF.sub v hv0
    have hvh : v ∈ h.nodes := s.mem.2 ⟨hvn, hS⟩
    have hsw : someW v h m' = .ok ((g.nbr v).find? (fun id => !m.hasEdge v id)) := by
      rw [someW_eq s.lawful' hvh, s.nbr v hvh]
      congr 1
      refine find?_congr' (fun x hx => ?_)
      rw [hmp.edge v x hS ((s.closed v x (GraphI.mem_nbr.1 hx)) ▸ hS)]
    unfold apInnerG
    rw [someW_eq hg hvn, hsw]
    simp only [Out.ok_bind]
    cases hw : (g.nbr v).find? (fun id => !m.hasEdge v id) with
    | none =>
      left
      refine ⟨f, f', P, m, m', rfl, rfl, hI, hfp, hmp, rfl, rfl, fun w ha => ?_⟩
      rw [List.find?_eq_none] at hw
      have := hw w (GraphI.mem_nbr.2 ha)
      simpa using this
    | some w =>
      have hw1 := List.find?_some hw
      simp only [Bool.not_eq_true'] at hw1
      have hadj : g.Adj v w := GraphI.mem_nbr.1 (List.mem_of_find?_eq_some hw)
      have hwn : w ∈ g.nodes := hg.adj_mem _ _ hadj
      have hwS : S w = true := (s.closed v w hadj) ▸ hS
      simp only
      rw [hF'.path w fuel0, hF.path w fuel0, PS_in hwS]
      by_cases hfu : fuel0 < (P w).length
      · right; right
        rw [if_pos hfu]; rfl
      rw [if_neg hfu]
      simp only [Out.ok_bind]
      obtain ⟨m1, m1', e1, e1', hmp1, hn1, hn1', he1⟩ := hmp.markEdge hS hwS hw1
      have wrap : ∀ (f2 f2' : Forest) (P2 : Nat → List Nat), FInv g p f2 P2 → (∀ x, P x ≠ [] → P2 x = P x) → OddN P2 w →
          FPart S f2 f2' →
          (∃ f1 f1' P1 m3 m3', apInnerG evT fuel0 g p v n f2 m1 = .ok (.fall (f1, m3)) ∧
            apInnerG evT fuel0 h q v n f2' m1' = .ok (.fall (f1', m3')) ∧ SInv g p f1 P1 m3 ∧ FPart S f1 f1' ∧ MPart S m3 m3' ∧
            m3.nodes = m.nodes ∧ m3'.nodes = m'.nodes ∧ (∀ w, g.Adj v w → m3.hasEdge v w = true)) ∨
          (∃ f1 f1' P1 w, EvenEdge g p f1 P1 v w ∧ FPart S f1 f1' ∧
            apInnerG evT fuel0 g p v n f2 m1 = .ok (.ret (some (v, P1 w, f1))) ∧
            apInnerG evT fuel0 h q v n f2' m1' = .ok (.ret (some (v, P1 w, f1')))) ∨
          apInnerG evT fuel0 g p v n f2 m1 = .timeout := by
        intro f2 f2' P2 h1 h2 h3 h4
        obtain ⟨hI2, hv2⟩ := hI.mark hn1 he1 hv h1 h2 h3
        rcases ih f2 f2' P2 m1 m1' hI2 h4 hmp1 hv2 with ⟨a, a', b, c, c', k1, k2, k3, k4, k5, k6, k7, k8⟩ | k | k
        · exact .inl ⟨a, a', b, c, c', k1, k2, k3, k4, k5, by rw [k6, hn1], by rw [k7, hn1'], k8⟩
        · exact .inr (.inl k)
        · exact .inr (.inr k)
      by_cases hPw : P w = []
      · simp only [hPw, if_true]
        obtain ⟨mw, hmw⟩ : ∃ mw, p.get w = some mw := by
          cases hc : p.get w with
          | none => exact absurd hPw (hF.roots w hwn hc)
          | some mw => exact ⟨mw, rfl⟩
        have hmS : S mw = true := (s.closed w mw (hp.adj' hmw)) ▸ hwS
        obtain ⟨f1, f2, P2, a1, a2, hF2, hP2w, hold⟩ := hF.grow hg hp hv hadj hPw hmw
        obtain ⟨f1', b1, hf1⟩ := hfp.addEdge hS hwS a1
        obtain ⟨f2', b2, hf2⟩ := hf1.addEdge hwS hmS a2
        have hodd : OddN P2 w := by
          unfold OddN; rw [hP2w]; refine ⟨by simp, ?_⟩
          simp; omega
        have hmq : q.mate w = .ok mw := mate_of_some (by rw [hpq w hwn hwS, hmw])
        rw [a1, b1, mate_of_some hmw, hmq]
        simp only [Out.ok_bind]
        rw [a2, b2, e1, e1']
        simp only [Out.ok_bind]
        exact wrap f2 f2' P2 hF2 hold hodd hf2
      · simp only [hPw, if_false]
        by_cases hev : (P w).length % 2 = 1
        · right; left
          refine ⟨f, f', P, w, ⟨hF, hadj, hv, hev⟩, hfp, ?_, ?_⟩
          · simp [hev, evT]
          · simp [hev, evT]
        · have hodd : OddN P w := ⟨hPw, by omega⟩
          have hb : ((P w).length % 2 == 1) = false := by simpa using hev
          simp only [hb, Bool.false_eq_true, if_false]
          rw [e1, e1']
          simp only [Out.ok_bind]
          exact wrap f f' P hF (fun _ _ => rfl) hodd hfp

/-- The inner loop at a node outside `S` changes nothing on `S`. -/
theorem apInner_out (s : GraphI.Sub S g h) (hp : p.Matches g) {v : Nat} (hS : S v = false) {f' : Forest} {m' : Marker} (n : Nat) :
    ∀ (f : Forest) (P : Nat → List Nat) (m : Marker), SInv g p f P m → FPart S f f' → MPart S m m' → (P v).length % 2 = 1 →
    (∃ f1 P1 m1, apInnerG evT fuel0 g p v n f m = .ok (.fall (f1, m1)) ∧ SInv g p f1 P1 m1 ∧ FPart S f1 f' ∧ MPart S m1 m' ∧
      m1.nodes = m.nodes ∧ (∀ w, g.Adj v w → m1.hasEdge v w = true)) ∨
    (∃ f1 P1 w, EvenEdge g p f1 P1 v w ∧ apInnerG evT fuel0 g p v n f m = .ok (.ret (some (v, P1 w, f1)))) ∨
    apInnerG evT fuel0 g p v n f m = .timeout := by
  have hg := s.lawful
  induction n with
  | zero => intro f P m _ _ _ _; exact .inr (.inr rfl)
  | succ n ih =>
    intro f P m hI hfp hmp hv
    have hF := hI.forest
    have hv0 : P v ≠ [] := by intro e; rw [e] at hv; simp at hv
    have hvn : v ∈ g.nodes := hF.sub v hv0
    unfold apInnerG
    rw [someW_eq hg hvn]
    simp only [Out.ok_bind]
    cases hw : (g.nbr v).find? (fun id => !m.hasEdge v id) with
    | none =>
      left
      refine ⟨f, P, m, rfl, hI, hfp, hmp, rfl, fun w ha => ?_⟩
      rw [List.find?_eq_none] at hw
      have := hw w (GraphI.mem_nbr.2 ha)
      simpa using this
    | some w =>
      have hw1 := List.find?_some hw
      simp only [Bool.not_eq_true'] at hw1
      have hadj : g.Adj v w := GraphI.mem_nbr.1 (List.mem_of_find?_eq_some hw)
      have hwn : w ∈ g.nodes := hg.adj_mem _ _ hadj
      have hwS : S w = false := (s.closed v w hadj) ▸ hS
      simp only
      rw [hF.path w fuel0]
      by_cases hfu : fuel0 < (P w).length
      · right; right
        rw [if_pos hfu]; rfl
      rw [if_neg hfu]
      simp only [Out.ok_bind]
      obtain ⟨m1, e1, hmp1, hn1, he1⟩ := hmp.markOut hS hwS hw1
      have wrap : ∀ (f2 : Forest) (P2 : Nat → List Nat), FInv g p f2 P2 → (∀ x, P x ≠ [] → P2 x = P x) → OddN P2 w →
          FPart S f2 f' →
          (∃ f1 P1 m3, apInnerG evT fuel0 g p v n f2 m1 = .ok (.fall (f1, m3)) ∧ SInv g p f1 P1 m3 ∧ FPart S f1 f' ∧ MPart S m3 m' ∧
            m3.nodes = m.nodes ∧ (∀ w, g.Adj v w → m3.hasEdge v w = true)) ∨
          (∃ f1 P1 w, EvenEdge g p f1 P1 v w ∧ apInnerG evT fuel0 g p v n f2 m1 = .ok (.ret (some (v, P1 w, f1)))) ∨
          apInnerG evT fuel0 g p v n f2 m1 = .timeout := by
        intro f2 P2 h1 h2 h3 h4
        obtain ⟨hI2, hv2⟩ := hI.mark hn1 he1 hv h1 h2 h3
        rcases ih f2 P2 m1 hI2 h4 hmp1 hv2 with ⟨a, b, c, k1, k3, k4, k5, k6, k8⟩ | k | k
        · exact .inl ⟨a, b, c, k1, k3, k4, k5, by rw [k6, hn1], k8⟩
        · exact .inr (.inl k)
        · exact .inr (.inr k)
      by_cases hPw : P w = []
      · simp only [hPw, if_true]
        obtain ⟨mw, hmw⟩ : ∃ mw, p.get w = some mw := by
          cases hc : p.get w with
          | none => exact absurd hPw (hF.roots w hwn hc)
          | some mw => exact ⟨mw, rfl⟩
        have hmS : S mw = false := (s.closed w mw (hp.adj' hmw)) ▸ hwS
        obtain ⟨f1, f2, P2, a1, a2, hF2, hP2w, hold⟩ := hF.grow hg hp hv hadj hPw hmw
        have hf2 := (hfp.addOut hwS a1).addOut hmS a2
        have hodd : OddN P2 w := by
          unfold OddN; rw [hP2w]; refine ⟨by simp, ?_⟩
          simp; omega
        rw [a1, mate_of_some hmw]
        simp only [Out.ok_bind]
        rw [a2, e1]
        simp only [Out.ok_bind]
        exact wrap f2 P2 hF2 hold hodd hf2
      · simp only [hPw, if_false]
        by_cases hev : (P w).length % 2 = 1
        · right; left
          refine ⟨f, P, w, ⟨hF, hadj, hv, hev⟩, ?_⟩
          simp [hev, evT]
        · have hodd : OddN P w := ⟨hPw, by omega⟩
          have hb : ((P w).length % 2 == 1) = false := by simpa using hev
          simp only [hb, Bool.false_eq_true, if_false]
          rw [e1]
          simp only [Out.ok_bind]
          exact wrap f P hF (fun _ _ => rfl) hodd hfp

theorem SInv.markNode (hI : SInv g p f P m) {v : Nat} (hd : ∀ w, g.Adj v w → m.hasEdge v w = true) :
    SInv g p f P { m with nodes := v :: m.nodes } := by
  refine ⟨hI.forest, hI.pairs, hI.edges, ?_⟩
  intro u hu z haz
  show m.hasEdge u z = true
  unfold Marker.hasNode at hu
  simp only [List.contains_cons, Bool.or_eq_true, beq_iff_eq] at hu
  rcases hu with rfl | hu
  · exact hd z haz
  · exact hI.done u hu z haz

theorem Marker.markNode_ok {m : Marker} {v : Nat} (h : m.hasNode v = false) : m.markNode v = .ok { m with nodes := v :: m.nodes } := by
  unfold Marker.hasNode at h
  unfold Marker.markNode; rw [h]; simp

theorem apOuterG_succ {X : Type} (ev : Nat → List Nat → Forest → Out X) (d : X) (g : GraphI) (p : Pairing) (n : Nat) (f : Forest) (m : Marker) :
    apOuterG ev d fuel0 g p (n + 1) f m = (someV f m >>= fun ov =>
      match ov with
      | none => .ok d
      | some v =>
        apInnerG ev fuel0 g p v fuel0 f m >>= fun fl =>
          match fl with
          | .ret r => .ok r
          | .fall (f1, m1) => m1.markNode v >>= fun m2 => apOuterG ev d fuel0 g p n f1 m2) := rfl

/-- The outer loop: what it finds on the graph it finds on the part, if it is there. -/
theorem apOuter_part (s : GraphI.Sub S g h) (hp : p.Matches g) (hpq : Pairing.Sub S g p q) (n : Nat) :
    ∀ (k : Nat), n ≤ k → ∀ (f f' : Forest) (P : Nat → List Nat) (m m' : Marker), SInv g p f P m → FPart S f f' → MPart S m m' →
    (apOuterG evT none fuel0 g p n f m = .ok none ∧ apOuterG evT none fuel0 h q k f' m' = .ok none) ∨
    (∃ f1 P1 v w, EvenEdge g p f1 P1 v w ∧ apOuterG evT none fuel0 g p n f m = .ok (some (v, P1 w, f1)) ∧
      (S v = true → ∃ f1', FPart S f1 f1' ∧ apOuterG evT none fuel0 h q k f' m' = .ok (some (v, P1 w, f1')))) ∨
    apOuterG evT none fuel0 g p n f m = .timeout := by
  have hg := s.lawful
  induction n with
  | zero => intro k _ f f' P m m' _ _ _; exact .inr (.inr rfl)
  | succ n ih =>
    intro k hk f f' P m m' hI hfp hmp
    have hF := hI.forest
    have hF' := hF.part s hp hpq hfp
    -- what the search on the part looks at
    have hfind : (f'.nodes.filter (fun x => (PS S P x).length % 2 == 1)).find? (fun x => !m'.hasNode x) =
        ((f.nodes.filter (fun x => (P x).length % 2 == 1)).filter S).find? (fun x => !m.hasNode x) := by
      have h1 : f'.nodes.filter (fun x => (PS S P x).length % 2 == 1) = (f.nodes.filter (fun x => (P x).length % 2 == 1)).filter S := by
        rw [hfp.nodes, List.filter_filter, List.filter_filter]
        refine List.filter_congr (fun x _ => ?_)
        cases hx : S x with
        | true => rw [PS_in hx]; simp
        | false => rw [PS_out hx]; simp
      rw [h1]
      refine find?_congr' (fun x hx => ?_)
      rw [hmp.node x (List.mem_filter.1 hx).2]
    rw [apOuterG_succ evT none g p n f m, hF.someV m]
    simp only [Out.ok_bind]
    obtain ⟨k, rfl⟩ : ∃ j, k = j + 1 := ⟨k - 1, by omega⟩
    cases hv : (f.nodes.filter (fun x => (P x).length % 2 == 1)).find? (fun x => !m.hasNode x) with
    | none =>
      left
      refine ⟨rfl, ?_⟩
      rw [apOuterG_succ evT none h q k f' m', hF'.someV m', hfind]
      have : ((f.nodes.filter (fun x => (P x).length % 2 == 1)).filter S).find? (fun x => !m.hasNode x) = none := by
        rw [List.find?_eq_none] at hv ⊢
        exact fun x hx => hv x (List.mem_filter.1 hx).1
      rw [this]; rfl
    | some v =>
      have hv1 := List.find?_some hv
      simp only [Bool.not_eq_true'] at hv1
      have hvm := List.mem_of_find?_eq_some hv
      rw [List.mem_filter] at hvm
      have hve : (P v).length % 2 = 1 := by simpa using hvm.2
      simp only
      cases hS : S v with
      | true =>
        have hv' : ((f.nodes.filter (fun x => (P x).length % 2 == 1)).filter S).find? (fun x => !m.hasNode x) = some v := by
          rw [List.find?_eq_some_iff_append] at hv ⊢
          obtain ⟨h0, as, bs, e, hno⟩ := hv
          refine ⟨h0, as.filter S, bs.filter S, ?_, fun x hx => hno x (List.mem_filter.1 hx).1⟩
          rw [e, List.filter_append, List.filter_cons_of_pos hS]
        rw [apOuterG_succ evT none h q k f' m', hF'.someV m', hfind, hv']
        simp only [Out.ok_bind]
        rcases apInner_in (fuel0 := fuel0) s hp hpq hS fuel0 f f' P m m' hI hfp hmp hve with
          ⟨f1, f1', P1, m1, m1', h1, h2, h3, h4, h5, h6, h7, h8⟩ | ⟨f1, f1', P1, w, hE, hf1, h1, h2⟩ | h1
        · rw [h1, h2]
          simp only [Out.ok_bind]
          have c1 : m1.hasNode v = false := by unfold Marker.hasNode at hv1 ⊢; rw [h6]; exact hv1
          have c2 : m1'.hasNode v = false := by rw [h5.node v hS]; exact c1
          rw [Marker.markNode_ok c1, Marker.markNode_ok c2]
          simp only [Out.ok_bind]
          refine ih k (by omega) f1 f1' P1 _ _ (h3.markNode h8) h4 ⟨h5.edge, fun u hu => ?_⟩
          have := h5.node u hu
          unfold Marker.hasNode at this ⊢
          simp only [List.contains_cons, this]
        · right; left
          rw [h1, h2]
          exact ⟨f1, P1, v, w, hE, rfl, fun _ => ⟨f1', hf1, rfl⟩⟩
        · right; right
          rw [h1]; rfl
      | false =>
        rcases apInner_out (fuel0 := fuel0) s hp hS fuel0 f P m hI hfp hmp hve with
          ⟨f1, P1, m1, h1, h3, h4, h5, h6, h8⟩ | ⟨f1, P1, w, hE, h1⟩ | h1
        · rw [h1]
          simp only [Out.ok_bind]
          have c1 : m1.hasNode v = false := by unfold Marker.hasNode at hv1 ⊢; rw [h6]; exact hv1
          rw [Marker.markNode_ok c1]
          simp only [Out.ok_bind]
          refine ih (k + 1) (by omega) f1 f' P1 _ m' (h3.markNode h8) h4 ⟨h5.edge, fun u hu => ?_⟩
          have := h5.node u hu
          unfold Marker.hasNode at this ⊢
          rw [this]
          have hne : u ≠ v := by rintro rfl; rw [hS] at hu; cases hu
          simp [hne]
        · right; left
          rw [h1]
          exact ⟨f1, P1, v, w, hE, rfl, fun hc => by rw [hS] at hc; cases hc⟩
        · right; right
          rw [h1]; rfl

theorem roots_nodes (l : List Nat) : ∀ {f f1 : Forest}, l.foldlM (fun (f : Forest) v => f.addRoot v) f = .ok f1 → f1.nodes = f.nodes ++ l := by
  induction l with
  | nil => intro f f1 e; cases e; simp
  | cons x l ih =>
    intro f f1 e
    rw [List.foldlM_cons] at e
    obtain ⟨f2, e2, e⟩ := Out.bind_eq_ok.1 e
    rw [ih e]
    unfold Forest.addRoot at e2
    split at e2
    · injection e2 with e2; subst e2; simp
    · cases e2

/-- The search on the part finds what the search on the graph finds, if that is in the part. -/
theorem apTrace_part (s : GraphI.Sub S g h) (hp : p.Matches g) (hq : q.Matches h) (hpq : Pairing.Sub S g p q)
    {ord ord' : HashOrder} (ho : ord.Valid) (ho' : ord'.Valid) (n : Nat) :
    (apTrace ord n g p = .ok none ∧ apTrace ord' n h q = .ok none) ∨
    (∃ f1 P1 v w, EvenEdge g p f1 P1 v w ∧ apTrace ord n g p = .ok (some (v, P1 w, f1)) ∧
      (S v = true → ∃ f1', FPart S f1 f1' ∧ apTrace ord' n h q = .ok (some (v, P1 w, f1')))) ∨
    apTrace ord n g p = .timeout := by
  obtain ⟨m, e1, n1, h1⟩ := Marker.init_ok hp.symmetric ho
  obtain ⟨m', e1', n1', h1'⟩ := Marker.init_ok hq.symmetric ho'
  obtain ⟨f, e2, hF⟩ := roots_ok s.lawful p
  obtain ⟨f', e2', hF'⟩ := roots_ok s.lawful' q
  have hroots : h.nodes.filter (fun v => !q.hasNode v) = (g.nodes.filter (fun v => !p.hasNode v)).filter S := by
    rw [s.nodes, List.filter_filter, List.filter_filter]
    refine List.filter_congr (fun x hx => ?_)
    cases hS : S x with
    | true => rw [hasNode_eq, hasNode_eq, hpq x hx hS]; simp
    | false => simp
  have hfp : FPart S f f' := by
    refine ⟨?_, fun x hx => ?_, fun x hx => ?_⟩
    · rw [roots_nodes _ e2, roots_nodes _ e2', hroots]; simp [Forest.new]
    · rw [hF.get, hF'.get, hroots]
      simp only [List.mem_filter (p := S), hx, and_true]
    · rw [hF'.get, hroots]
      simp only [List.mem_filter (p := S), hx]
      simp [entryOf]
  have hmp : MPart S m m' := by
    refine ⟨fun u w hu hw => ?_, fun u hu => ?_⟩
    · rw [Bool.eq_iff_iff, h1, h1', hpq.get_iff s hp hq]
      simp [hu]
    · unfold Marker.hasNode; rw [n1, n1']
  have hI : SInv g p f _ m := ⟨hF, fun u w h => (h1 u w).2 h, fun u w h => .inl ((h1 u w).1 h), fun u hu => by
    unfold Marker.hasNode at hu; rw [n1] at hu; simp at hu⟩
  unfold apTrace
  rw [e1, e1', Out.ok_bind, Out.ok_bind, e2, e2', Out.ok_bind, Out.ok_bind]
  exact apOuter_part (fuel0 := n) s hp hpq n n (le_refl _) f f' _ m m' hI hfp hmp

end
end Gamma
