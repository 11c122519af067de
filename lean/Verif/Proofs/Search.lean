import Verif.Proofs.Relabel
/-
The search of `augmenting_path`: it ends with a certificate, or at an edge between two even nodes.  Two runs
that differ only in hash orders and the names of the nodes are followed side by side.
-/
namespace Gamma
open Pairing

/-! ### Marker -/
namespace Marker

theorem hasEdge_eq (m : Marker) (u w : Nat) : m.hasEdge u w = ((HMap.get m.edges u).getD []).contains w := by
  unfold hasEdge
  cases HMap.get m.edges u <;> simp

theorem markEdge_ok {m : Marker} {s t : Nat} (h : m.hasEdge s t = false) :
    ∃ m1, m.markEdge s t = .ok m1 ∧ m1.nodes = m.nodes ∧
      ∀ u w, m1.hasEdge u w = true ↔ m.hasEdge u w = true ∨ (u = s ∧ w = t) ∨ (u = t ∧ w = s) := by
  have e1 : m.markEdgeFwd s t =
      .ok { m with edges := m.edges.insert s ((HMap.get m.edges s).getD [] ++ [t]) } := by
    unfold markEdgeFwd
    rw [hasEdge_eq] at h
    cases hg : HMap.get m.edges s with
    | none => simp
    | some l => rw [hg] at h; simp at h; simp [h]
  have e2 : ∀ m : Marker, m.markEdgeBwd s t =
      { m with edges := m.edges.insert t ((HMap.get m.edges t).getD [] ++ [s]) } := by
    intro m
    unfold markEdgeBwd
    cases hg : HMap.get m.edges t with
    | none => simp
    | some l => simp
  refine ⟨_, by unfold markEdge; rw [e1, Out.ok_bind], by rw [e2], ?_⟩
  intro u w
  rw [e2]
  simp only [hasEdge_eq, HMap.get_insert]
  by_cases h1 : t = s
  · subst h1
    by_cases h2 : u = t
    · subst h2; simp
    · simp [h2]
  · by_cases h2 : u = t
    · subst h2; simp [h1]
    · by_cases h3 : u = s
      · subst h3; simp [h2]
      · simp [h2, h3]

/-- Two markers that cannot be told apart from the nodes `S`, but for their names. -/
def Same (φ : Nat → Nat) (S : List Nat) (m m' : Marker) : Prop :=
  m'.nodes = m.nodes.map φ ∧ ∀ u ∈ S, ∀ w, m'.hasEdge (φ u) (φ w) = m.hasEdge u w

theorem Same.markEdge {φ : Nat → Nat} (hφ : Function.Injective φ) {S : List Nat} {m m' : Marker} (h : Same φ S m m') {s t : Nat}
    (hS : s ∈ S) (hf : m.hasEdge s t = false) :
    ∃ m1 m1', m.markEdge s t = .ok m1 ∧ m'.markEdge (φ s) (φ t) = .ok m1' ∧ Same φ S m1 m1' ∧ m1.nodes = m.nodes ∧
      ∀ u w, m1.hasEdge u w = true ↔ m.hasEdge u w = true ∨ (u = s ∧ w = t) ∨ (u = t ∧ w = s) := by
  obtain ⟨m1, e1, n1, h1⟩ := markEdge_ok hf
  obtain ⟨m1', e1', n1', h1'⟩ := markEdge_ok (m := m') (s := φ s) (t := φ t) (by rw [h.2 s hS]; exact hf)
  refine ⟨m1, m1', e1, e1', ⟨by rw [n1, n1', h.1], fun u hu w => ?_⟩, n1, h1⟩
  rw [Bool.eq_iff_iff, h1, h1', h.2 u hu, hφ.eq_iff, hφ.eq_iff, hφ.eq_iff, hφ.eq_iff]

theorem Same.hasNode {φ : Nat → Nat} (hφ : Function.Injective φ) {S : List Nat} {m m' : Marker} (h : Same φ S m m') (x : Nat) :
    m'.hasNode (φ x) = m.hasNode x := by
  unfold Marker.hasNode; rw [h.1, contains_map hφ]

/-- The marking of the paired edges. -/
theorem init_ok {p : Pairing} (hs : p.Symmetric) {ord : HashOrder} (ho : ord.Valid) :
    ∃ m, (p.edges ord).foldlM (fun m e => m.markEdge e.1 e.2) Marker.new = .ok m ∧ m.nodes = [] ∧
      ∀ u w, m.hasEdge u w = true ↔ p.get u = some w := by
  obtain ⟨m, e, hn, hm⟩ := foldlM_inv_ok (f := fun (m : Marker) (e : Nat × Nat) => m.markEdge e.1 e.2)
    (fun pre m => m.nodes = [] ∧ ∀ u w, m.hasEdge u w = true ↔ ((u, w) ∈ pre ∨ (w, u) ∈ pre)) (p.edges ord)
    (b := Marker.new) (by
      rintro pre ⟨a, c⟩ post m hL ⟨hn, hm⟩
      have hdis := edges_disjoint ho hs
      rw [hL, List.pairwise_append] at hdis
      have hac := (mem_edges ho hs).1 (by rw [hL]; simp : (a, c) ∈ p.edges ord)
      have hf : m.hasEdge a c = false := by
        rw [Bool.eq_false_iff, Ne, hm]
        rintro (h | h)
        · exact (hdis.2.2 _ h (a, c) (by simp)).1 rfl
        · exact (hdis.2.2 _ h (a, c) (by simp)).2.1 rfl
      obtain ⟨m1, e1, n1, h1⟩ := markEdge_ok hf
      refine ⟨m1, e1, by rw [n1, hn], fun u w => ?_⟩
      rw [h1, hm]
      simp only [List.mem_append, List.mem_singleton, Prod.mk.injEq]
      constructor
      · rintro ((h | h) | ⟨h1, h2⟩ | ⟨h1, h2⟩)
        · exact .inl (.inl h)
        · exact .inr (.inl h)
        · exact .inl (.inr ⟨h1, h2⟩)
        · exact .inr (.inr ⟨h2, h1⟩)
      · rintro ((h | ⟨h1, h2⟩) | (h | ⟨h1, h2⟩))
        · exact .inl (.inl h)
        · exact .inr (.inl ⟨h1, h2⟩)
        · exact .inl (.inr h)
        · exact .inr (.inr ⟨h2, h1⟩)) ⟨rfl, fun u w => by simp [Marker.new, hasEdge]⟩
  refine ⟨m, e, hn, fun u w => ?_⟩
  rw [hm, mem_edges ho hs, mem_edges ho hs]
  constructor
  · rintro (⟨-, h⟩ | ⟨-, h⟩)
    · exact h
    · exact hs.get_get h
  · intro h
    rcases Nat.lt_or_gt_of_ne (hs.ne h) with hlt | hlt
    · exact .inl ⟨hlt, h⟩
    · exact .inr ⟨hlt, hs.get_get h⟩

end Marker

/-! ### The loops -/

/-- A forest node at odd distance from its root. -/
def OddN (P : Nat → List Nat) (x : Nat) : Prop := P x ≠ [] ∧ (P x).length % 2 = 0

/-- The state of the search. -/
structure SInv (g : GraphI) (p : Pairing) (f : Forest) (P : Nat → List Nat) (m : Marker) : Prop where
  forest : FInv g p f P
  pairs : ∀ u w, p.get u = some w → m.hasEdge u w = true
  edges : ∀ u w, m.hasEdge u w = true → p.get u = some w ∨ OddN P w ∨ OddN P u
  done : ∀ u, m.hasNode u = true → ∀ w, g.Adj u w → m.hasEdge u w = true

/-- An edge between even nodes of the forest. -/
structure EvenEdge (g : GraphI) (p : Pairing) (f : Forest) (P : Nat → List Nat) (v w : Nat) : Prop where
  forest : FInv g p f P
  adj : g.Adj v w
  even_v : (P v).length % 2 = 1
  even_w : (P w).length % 2 = 1

/-- `h` is `g` under other names, but for the edges between mates: whether `h` has them, and where they stand among
the neighbors, is left open. -/
structure GraphI.AlongBut (φ : Nat → Nat) (g h : GraphI) (p : Pairing) : Prop where
  inj : Function.Injective φ
  lawful : g.Lawful
  nodes : h.nodes = g.nodes.map φ
  nbr : ∀ v ∈ g.nodes, ∃ l : List Nat, h.neighbors (φ v) = .ok (l.map φ) ∧
    l.filter (fun w => p.get v != some w) = (g.nbr v).filter (fun w => p.get v != some w)

theorem GraphI.Along.but {φ : Nat → Nat} {g h : GraphI} (a : GraphI.Along φ g h) (p : Pairing) : GraphI.AlongBut φ g h p :=
  ⟨a.inj, a.lawful, a.nodes, fun v hv => ⟨g.nbr v, by rw [a.lawful'.neighbors_eq (a.mem.2 hv), a.nbr v hv], rfl⟩⟩

theorem find_filter {l : List Nat} {f c : Nat → Bool} (h : ∀ x, f x = true → c x = true) :
    (l.filter c).find? f = l.find? f := by
  induction l with
  | nil => rfl
  | cons a l ih =>
    by_cases ha : c a = true
    · rw [List.filter_cons_of_pos ha, List.find?_cons, List.find?_cons, ih]
    · rw [List.filter_cons_of_neg ha, List.find?_cons, ih]
      have : f a = false := by
        rw [Bool.eq_false_iff]; exact fun hf => ha (h a hf)
      rw [this]

section
variable {φ : Nat → Nat} {g h : GraphI} {p q : Pairing} {pf : Platform} {ord ord' : HashOrder} {fuel0 : Nat}
  {rec rec' : GraphI → Pairing → Out (Option (List Nat))} {X Y : Type} {ev : Nat → List Nat → Forest → Out X} {d : X}
  {ev' : Nat → List Nat → Forest → Out Y} {d' : Y}

theorem someW_eq (hg : g.Lawful) {v : Nat} (hv : v ∈ g.nodes) (m : Marker) :
    someW v g m = .ok ((g.nbr v).find? (fun id => !m.hasEdge v id)) := by
  unfold someW
  rw [hg.neighbors_eq hv]; rfl

theorem countP_lt_of {l : List Nat} {f h : Nat → Bool} (himp : ∀ x, h x = true → f x = true) {w : Nat}
    (hw : w ∈ l) (h1 : f w = true) (h2 : h w = false) : l.countP h < l.countP f := by
  induction l with
  | nil => simp at hw
  | cons a l ih =>
    have hle : l.countP h ≤ l.countP f := List.countP_mono_left (fun x _ => himp x)
    simp only [List.countP_cons]
    rcases List.mem_cons.1 hw with rfl | hw
    · simp [h1, h2]; omega
    · have := ih hw
      have : (if h a = true then 1 else 0) ≤ (if f a = true then 1 else 0) := by
        by_cases hh : h a = true
        · simp [hh, himp a hh]
        · simp [hh]
      omega

/-- The inner loop of `augmenting_path` (`apInner`), with an arbitrary continuation where it calls `even_path`. -/
def apInnerG (ev : Nat → List Nat → Forest → Out X) (fuel0 : Nat) (g : GraphI) (p : Pairing) (v : Nat) :
    (fuel : Nat) → Forest → Marker → Out (Flow X (Forest × Marker))
  | 0, _, _ => .timeout
  | n + 1, f, m =>
    someW v g m >>= fun ow =>
      match ow with
      | none => .ok (.fall (f, m))
      | some w =>
        f.path fuel0 w >>= fun pw =>
          match pw with
          | some pathW =>
            if pathW.length % 2 == 1 then ev v pathW f >>= fun r => .ok (.ret r)
            else m.markEdge v w >>= fun m1 => apInnerG ev fuel0 g p v n f m1
          | none =>
            f.addEdge v w >>= fun f1 =>
              p.mate w >>= fun mw =>
                f1.addEdge w mw >>= fun f2 =>
                  m.markEdge v w >>= fun m1 => apInnerG ev fuel0 g p v n f2 m1

/-- The outer loop (`apOuter`), with an arbitrary continuation and an arbitrary answer where it finds nothing. -/
def apOuterG (ev : Nat → List Nat → Forest → Out X) (d : X) (fuel0 : Nat) (g : GraphI) (p : Pairing) :
    (fuel : Nat) → Forest → Marker → Out X
  | 0, _, _ => .timeout
  | n + 1, f, m =>
    someV f m >>= fun ov =>
      match ov with
      | none => .ok d
      | some v =>
        apInnerG ev fuel0 g p v fuel0 f m >>= fun fl =>
          match fl with
          | .ret r => .ok r
          | .fall (f1, m1) => m1.markNode v >>= fun m2 => apOuterG ev d fuel0 g p n f1 m2

theorem apInner_eq (v : Nat) (n : Nat) : ∀ (f : Forest) (m : Marker),
    apInner pf ord fuel0 rec g p v n f m =
      apInnerG (fun v pw f => evenPath pf ord fuel0 rec v pw g f p) fuel0 g p v n f m := by
  induction n with
  | zero => intros; rfl
  | succ n ih => intro f m; simp only [apInner, apInnerG, ih]; rfl

theorem apOuter_eq (n : Nat) : ∀ (f : Forest) (m : Marker),
    apOuter pf ord fuel0 rec g p n f m =
      apOuterG (fun v pw f => evenPath pf ord fuel0 rec v pw g f p) none fuel0 g p n f m := by
  induction n with
  | zero => intros; rfl
  | succ n ih =>
    intro f m
    simp only [apOuter, apOuterG, apInner_eq, ih]
    congr 1; funext ov
    cases ov with
    | none => rfl
    | some v =>
      simp only
      congr 1; funext fl
      cases fl <;> rfl

/-- The continuation comes last. -/
theorem apInnerG_bind (ev : Nat → List Nat → Forest → Out X) (k : X → Out Y) (v : Nat) (n : Nat) : ∀ (f : Forest) (m : Marker),
    apInnerG (fun v pw f => ev v pw f >>= k) fuel0 g p v n f m = (apInnerG ev fuel0 g p v n f m >>= fun fl =>
      match fl with
      | .ret r => k r >>= fun y => .ok (.ret y)
      | .fall s => .ok (.fall s)) := by
  induction n with
  | zero => intros; rfl
  | succ n ih =>
    intro f m
    simp only [apInnerG]
    rw [bind_assoc]
    congr 1; funext ow
    cases ow with
    | none => rfl
    | some w =>
      simp only
      rw [bind_assoc]
      congr 1; funext pw
      cases pw with
      | none =>
        simp only [bind_assoc, ih]
      | some pathW =>
        simp only
        split
        · simp only [bind_assoc, Out.ok_bind]
        · simp only [bind_assoc, ih]

theorem apOuterG_bind (ev : Nat → List Nat → Forest → Out X) (d : X) (k : X → Out Y) (d' : Y) (hd : k d = .ok d') (n : Nat) :
    ∀ (f : Forest) (m : Marker),
    apOuterG (fun v pw f => ev v pw f >>= k) d' fuel0 g p n f m = (apOuterG ev d fuel0 g p n f m >>= k) := by
  induction n with
  | zero => intros; rfl
  | succ n ih =>
    intro f m
    simp only [apOuterG]
    rw [bind_assoc]
    congr 1; funext ov
    cases ov with
    | none => exact hd.symm
    | some v =>
      simp only
      rw [apInnerG_bind, bind_assoc, bind_assoc]
      congr 1; funext fl
      cases fl with
      | ret r => simp only [bind_assoc, Out.ok_bind]; cases k r <;> rfl
      | fall s => simp only [Out.ok_bind, bind_assoc, ih]

theorem apInner_spec (ha : GraphI.AlongBut φ g h p) (hp : p.Matches g) (hpq : ∀ v ∈ g.nodes, q.get (φ v) = (p.get v).map φ) {v : Nat} (n : Nat) :
    ∀ (f : Forest) (P : Nat → List Nat) (m m' : Marker), SInv g p f P m → Marker.Same φ g.nodes m m' → (P v).length % 2 = 1 →
    (∃ f1 P1 m1 m1', apInnerG ev fuel0 g p v n f m = .ok (.fall (f1, m1)) ∧
      apInnerG ev' fuel0 h q (φ v) n (f.ren φ) m' = .ok (.fall (f1.ren φ, m1')) ∧ SInv g p f1 P1 m1 ∧ Marker.Same φ g.nodes m1 m1' ∧
      m1.nodes = m.nodes ∧ (∀ w, g.Adj v w → m1.hasEdge v w = true)) ∨
    (∃ f1 P1 w, EvenEdge g p f1 P1 v w ∧
      apInnerG ev fuel0 g p v n f m =
        (ev v (P1 w) f1 >>= fun r => .ok (.ret r)) ∧
      apInnerG ev' fuel0 h q (φ v) n (f.ren φ) m' =
        (ev' (φ v) ((P1 w).map φ) (f1.ren φ) >>= fun r => .ok (.ret r))) ∨
    (apInnerG ev fuel0 g p v n f m = .timeout ∧ apInnerG ev' fuel0 h q (φ v) n (f.ren φ) m' = .timeout ∧
      (fuel0 < g.nodes.length ∨ n ≤ g.nodes.countP (fun x => !m.hasEdge v x))) := by
  have hg := ha.lawful
  have hφ := ha.inj
  induction n with
  | zero => intro f P m m' _ _ _; exact .inr (.inr ⟨rfl, rfl, .inr (Nat.zero_le _)⟩)
  | succ n ih =>
    intro f P m m' hI hsame hv
    have hF := hI.forest
    have hv0 : P v ≠ [] := by intro e; rw [e] at hv; simp at hv
    have hvn : v ∈ g.nodes := hF.sub v hv0
    have hsw : someW (φ v) h m' = .ok (((g.nbr v).find? (fun id => !m.hasEdge v id)).map φ) := by
      obtain ⟨l, hl, hf⟩ := ha.nbr v hvn
      have hc : ∀ x, (!m.hasEdge v x) = true → (p.get v != some x) = true := by
        intro x hx
        simp only [Bool.not_eq_true'] at hx
        rw [bne_iff_ne]
        intro e
        rw [hI.pairs v x e] at hx; simp at hx
      rw [← find_filter (l := g.nbr v) hc, ← hf, find_filter hc]
      unfold someW
      rw [hl, Out.expect_ok, Out.ok_bind, List.find?_map]
      congr 3
      funext id
      show (!m'.hasEdge (φ v) (φ id)) = !m.hasEdge v id
      rw [hsame.2 v hvn]
    unfold apInnerG
    rw [someW_eq hg hvn, hsw]
    simp only [Out.ok_bind]
    cases hw : (g.nbr v).find? (fun id => !m.hasEdge v id) with
    | none =>
      left
      refine ⟨f, P, m, m', rfl, rfl, hI, hsame, rfl, fun w ha => ?_⟩
      rw [List.find?_eq_none] at hw
      have := hw w (GraphI.mem_nbr.2 ha)
      simpa using this
    | some w =>
      have hw1 := List.find?_some hw
      simp only [Bool.not_eq_true'] at hw1
      have hadj : g.Adj v w := GraphI.mem_nbr.1 (List.mem_of_find?_eq_some hw)
      have hwn : w ∈ g.nodes := hg.adj_mem _ _ hadj
      simp only
      simp only [Option.map_some]
      rw [Forest.path_ren hφ, hF.path w fuel0]
      by_cases hfu : fuel0 < (P w).length
      · right; right
        rw [if_pos hfu]
        refine ⟨rfl, rfl, .inl ?_⟩
        have := hF.length_le hg w
        omega
      rw [if_neg hfu]
      simp only [Out.ok_bind, Out.ren]
      obtain ⟨m1, m1', e1, e1', hs1, hn1, he1⟩ := hsame.markEdge hφ hvn hw1
      have hdec : g.nodes.countP (fun x => !m1.hasEdge v x) < g.nodes.countP (fun x => !m.hasEdge v x) := by
        refine countP_lt_of (w := w) ?_ hwn (by simp [hw1]) (by simp [(he1 v w).2 (.inr (.inl ⟨rfl, rfl⟩))])
        intro x hx
        simp only [Bool.not_eq_true'] at hx ⊢
        by_contra hc
        simp only [Bool.not_eq_false] at hc
        rw [(he1 v x).2 (.inl hc)] at hx; simp at hx
      -- what follows a marking
      have next : ∀ (f2 : Forest) (P2 : Nat → List Nat), FInv g p f2 P2 → (∀ x, P x ≠ [] → P2 x = P x) → OddN P2 w →
          SInv g p f2 P2 m1 ∧ (P2 v).length % 2 = 1 := by
        intro f2 P2 hF2 hold hodd
        have oldOdd : ∀ x, OddN P x → OddN P2 x := by
          intro x hx
          unfold OddN; rw [hold x hx.1]; exact hx
        refine ⟨⟨hF2, fun u z huz => (he1 u z).2 (.inl (hI.pairs u z huz)), ?_, ?_⟩, by rw [hold v hv0]; exact hv⟩
        · intro u z huz
          rcases (he1 u z).1 huz with h | ⟨rfl, rfl⟩ | ⟨rfl, rfl⟩
          · rcases hI.edges u z h with h | h | h
            · exact .inl h
            · exact .inr (.inl (oldOdd _ h))
            · exact .inr (.inr (oldOdd _ h))
          · exact .inr (.inl hodd)
          · exact .inr (.inr hodd)
        · intro u hu z haz
          have hu' : m.hasNode u = true := by
            unfold Marker.hasNode at hu ⊢; rw [← hn1]; exact hu
          exact (he1 u z).2 (.inl (hI.done u hu' z haz))
      have wrap : ∀ (f2 : Forest) (P2 : Nat → List Nat), SInv g p f2 P2 m1 → (P2 v).length % 2 = 1 →
          (∃ f1 P1 m3 m3', apInnerG ev fuel0 g p v n f2 m1 = .ok (.fall (f1, m3)) ∧
            apInnerG ev' fuel0 h q (φ v) n (f2.ren φ) m1' = .ok (.fall (f1.ren φ, m3')) ∧ SInv g p f1 P1 m3 ∧ Marker.Same φ g.nodes m3 m3' ∧
            m3.nodes = m.nodes ∧ (∀ w, g.Adj v w → m3.hasEdge v w = true)) ∨
          (∃ f1 P1 w, EvenEdge g p f1 P1 v w ∧
            apInnerG ev fuel0 g p v n f2 m1 =
              (ev v (P1 w) f1 >>= fun r => .ok (.ret r)) ∧
            apInnerG ev' fuel0 h q (φ v) n (f2.ren φ) m1' =
              (ev' (φ v) ((P1 w).map φ) (f1.ren φ) >>= fun r => .ok (.ret r))) ∨
          (apInnerG ev fuel0 g p v n f2 m1 = .timeout ∧ apInnerG ev' fuel0 h q (φ v) n (f2.ren φ) m1' = .timeout ∧
            (fuel0 < g.nodes.length ∨ n + 1 ≤ g.nodes.countP (fun x => !m.hasEdge v x))) := by
        intro f2 P2 h1 h2
        rcases ih f2 P2 m1 m1' h1 hs1 h2 with ⟨a, b, c, d, h1, h2, h3, h4, h5, h6⟩ | h | ⟨h1, h2, h3⟩
        · exact .inl ⟨a, b, c, d, h1, h2, h3, h4, by rw [h5, hn1], h6⟩
        · exact .inr (.inl h)
        · refine .inr (.inr ⟨h1, h2, ?_⟩)
          rcases h3 with h3 | h3
          · exact .inl h3
          · exact .inr (by omega)
      by_cases hPw : P w = []
      · -- an unvisited node: it has a mate
        simp only [hPw, if_true, Option.map_none]
        obtain ⟨mw, hmw⟩ : ∃ mw, p.get w = some mw := by
          cases hc : p.get w with
          | none => exact absurd hPw (hF.roots w hwn hc)
          | some mw => exact ⟨mw, rfl⟩
        obtain ⟨f1, f2, P2, a1, a2, hF2, hP2w, hold⟩ := hF.grow hg hp hv hadj hPw hmw
        have hodd : OddN P2 w := by
          unfold OddN; rw [hP2w]; refine ⟨by simp, ?_⟩
          simp; omega
        obtain ⟨hI2, hv2⟩ := next f2 P2 hF2 hold hodd
        have hmq : q.mate (φ w) = .ok (φ mw) := mate_of_some (by rw [hpq w hwn, hmw]; rfl)
        rw [Forest.addEdge_ren hφ, a1, mate_of_some hmw, hmq]
        simp only [Out.ok_bind, Out.ren]
        rw [Forest.addEdge_ren hφ, a2, e1, e1']
        simp only [Out.ok_bind, Out.ren]
        exact wrap f2 P2 hI2 hv2
      · simp only [hPw, if_false, Option.map_some, List.length_map]
        by_cases hev : (P w).length % 2 = 1
        · -- an even node
          right; left
          refine ⟨f, P, w, ⟨hF, hadj, hv, hev⟩, ?_, ?_⟩
          · simp [hev]
          · simp [hev]
        · have hodd : OddN P w := ⟨hPw, by omega⟩
          obtain ⟨hI2, hv2⟩ := next f P hF (fun _ _ => rfl) hodd
          have hb : ((P w).length % 2 == 1) = false := by simpa using hev
          simp only [hb, Bool.false_eq_true, if_false]
          rw [e1, e1']
          simp only [Out.ok_bind]
          exact wrap f P hI2 hv2

/-- The certificate of an exhausted search. -/
theorem SInv.cert (hp : p.Matches g) (hg : g.Lawful) {f : Forest} {P : Nat → List Nat} {m : Marker}
    (h : SInv g p f P m) (hall : ∀ x, (P x).length % 2 = 1 → m.hasNode x = true) :
    Cert g p (OddN P) (fun x => if (P x).length % 2 = 1 then x + 1 else 0) := by
  have hF := h.forest
  have hs := hp.symmetric
  have ev : ∀ u v, (P u).length % 2 = 1 → g.Adj u v → OddN P v := by
    intro u v hu ha
    rcases h.edges u v (h.done u (hall u hu) v ha) with h1 | h1 | h1
    · obtain ⟨e, hne⟩ := hF.mate_even hu h1
      refine ⟨hne, ?_⟩
      rw [e] at hu; simp at hu; omega
    · exact h1
    · exact absurd h1.2 (by omega)
  refine ⟨?_, ?_, ?_⟩
  · intro u v hne ha
    by_cases hu : (P u).length % 2 = 1
    · exact .inr (.inl (ev u v hu ha))
    · by_cases hv : (P v).length % 2 = 1
      · exact .inl (ev v u hv (hg.adj_symm _ _ ha))
      · exact .inr (.inr (by simp [hu, hv]))
  · intro a ha hA
    obtain ⟨y, ey, hy⟩ := hF.odd_child a hA.2 hA.1
    refine ⟨y, ey, fun hc => ?_⟩
    have h1 := hc.2; have h2 := hA.2
    rw [hy] at h1; simp at h1; omega
  · intro u hu v hv hAu hAv hc fu fv
    -- a free node is even
    have free : ∀ x ∈ g.nodes, ¬ OddN P x → (∀ y, p.get x = some y → OddN P y) → (P x).length % 2 = 1 := by
      intro x hx hA hf
      by_contra hc
      have hP : P x = [] := by
        by_contra hne
        exact hA ⟨hne, by omega⟩
      cases e : p.get x with
      | none => exact hF.roots x hx e hP
      | some y => exact hF.mate_mem (hf y e).1 (hs.get_get e) hP
    have h1 := free u hu hAu fu
    have h2 := free v hv hAv fv
    simp only [h1, h2, if_true] at hc
    omega

theorem apOuter_spec (ha : GraphI.AlongBut φ g h p) (hp : p.Matches g)
    (hpq : ∀ v ∈ g.nodes, q.get (φ v) = (p.get v).map φ) (n : Nat) :
    ∀ (f : Forest) (P : Nat → List Nat) (m m' : Marker), SInv g p f P m → Marker.Same φ g.nodes m m' →
    (apOuterG ev d fuel0 g p n f m = .ok d ∧ apOuterG ev' d' fuel0 h q n (f.ren φ) m' = .ok d' ∧
      ∃ A c, Cert g p A c) ∨
    (∃ f1 P1 v w, EvenEdge g p f1 P1 v w ∧
      apOuterG ev d fuel0 g p n f m = ev v (P1 w) f1 ∧
      apOuterG ev' d' fuel0 h q n (f.ren φ) m' = ev' (φ v) ((P1 w).map φ) (f1.ren φ)) ∨
    (apOuterG ev d fuel0 g p n f m = .timeout ∧ apOuterG ev' d' fuel0 h q n (f.ren φ) m' = .timeout ∧
      (fuel0 ≤ g.nodes.length ∨ n ≤ g.nodes.countP (fun x => !m.hasNode x))) := by
  have hg := ha.lawful
  have hφ := ha.inj
  induction n with
  | zero => intro f P m m' _ _; exact .inr (.inr ⟨rfl, rfl, .inr (Nat.zero_le _)⟩)
  | succ n ih =>
    intro f P m m' hI hsame
    have hF := hI.forest
    have hv' : someV (f.ren φ) m' = (someV f m).ren φ (Option.map φ) :=
      Forest.firstEven_ren hφ f (fun x => by rw [hsame.hasNode hφ]) f.nodes
    unfold apOuterG
    rw [hv', hF.someV m]
    simp only [Out.ok_bind, Out.ren]
    cases hv : (f.nodes.filter (fun x => (P x).length % 2 == 1)).find? (fun x => !m.hasNode x) with
    | none =>
      left
      refine ⟨rfl, rfl, _, _, hI.cert hp hg (fun x hx => ?_)⟩
      rw [List.find?_eq_none] at hv
      have hne : P x ≠ [] := by intro e; rw [e] at hx; simp at hx
      have := hv x (by
        rw [List.mem_filter]
        exact ⟨(hF.nodes x).2 hne, by simpa using hx⟩)
      simpa using this
    | some v =>
      have hv1 := List.find?_some hv
      simp only [Bool.not_eq_true'] at hv1
      have hvm := List.mem_of_find?_eq_some hv
      rw [List.mem_filter] at hvm
      have hve : (P v).length % 2 = 1 := by simpa using hvm.2
      have hvn : v ∈ g.nodes := hF.sub v ((hF.nodes v).1 hvm.1)
      simp only [Option.map_some]
      rcases apInner_spec (ev := ev) (ev' := ev') (fuel0 := fuel0) ha hp
        hpq (v := v) fuel0 f P m m' hI hsame hve with
        ⟨f1, P1, m1, m1', h1, h2, h3, h4, h5, h6⟩ | ⟨f1, P1, w, hE, h1, h2⟩ | ⟨h1, h2, h3⟩
      · rw [h1, h2]
        simp only [Out.ok_bind]
        have c1 : m1.markNode v = .ok { m1 with nodes := v :: m1.nodes } := by
          have : m1.nodes.contains v = false := by
            unfold Marker.hasNode at hv1; rw [h5]; exact hv1
          unfold Marker.markNode; rw [this]; simp
        have c2 : m1'.markNode (φ v) = .ok { m1' with nodes := φ v :: m1'.nodes } := by
          have : m1'.nodes.contains (φ v) = false := by
            unfold Marker.hasNode at hv1; rw [h4.1, contains_map hφ, h5]; exact hv1
          unfold Marker.markNode; rw [this]; simp
        rw [c1, c2]
        simp only [Out.ok_bind]
        have hI2 : SInv g p f1 P1 { m1 with nodes := v :: m1.nodes } := by
          refine ⟨h3.forest, h3.pairs, h3.edges, ?_⟩
          intro u hu z haz
          show m1.hasEdge u z = true
          unfold Marker.hasNode at hu
          simp only [List.contains_cons, Bool.or_eq_true, beq_iff_eq] at hu
          rcases hu with rfl | hu
          · exact h6 z haz
          · exact h3.done u hu z haz
        have hdec : g.nodes.countP (fun x => !(Marker.hasNode { m1 with nodes := v :: m1.nodes } x)) <
            g.nodes.countP (fun x => !m.hasNode x) := by
          refine countP_lt_of (w := v) ?_ hvn (by simp [hv1]) (by simp [Marker.hasNode])
          intro x hx
          unfold Marker.hasNode at hx ⊢
          simp only [List.contains_cons, Bool.not_or, Bool.and_eq_true] at hx
          rw [← h5]; exact hx.2
        rcases ih f1 P1 _ { m1' with nodes := φ v :: m1'.nodes } hI2 ⟨by simp [h4.1], h4.2⟩ with h | h | ⟨k1, k2, k3⟩
        · exact .inl h
        · exact .inr (.inl h)
        · refine .inr (.inr ⟨k1, k2, ?_⟩)
          rcases k3 with k3 | k3
          · exact .inl k3
          · exact .inr (by omega)
      · right; left
        refine ⟨f1, P1, v, w, hE, ?_, ?_⟩
        · rw [h1]; cases ev v (P1 w) f1 <;> rfl
        · rw [h2]; cases ev' (φ v) ((P1 w).map φ) (f1.ren φ) <;> rfl
      · right; right
        rw [h1, h2]
        refine ⟨rfl, rfl, .inl ?_⟩
        rcases h3 with h3 | h3
        · omega
        · exact h3.trans List.countP_le_length

/-- The forest of the unpaired nodes. -/
theorem roots_ok (hg : g.Lawful) (p : Pairing) :
    ∃ f, (g.nodes.filter (fun v => !p.hasNode v)).foldlM (fun f v => f.addRoot v) Forest.new = .ok f ∧
      FInv g p f (fun x => if x ∈ g.nodes.filter (fun v => !p.hasNode v) then [x] else []) := by
  have hnd : (g.nodes.filter (fun v => !p.hasNode v)).Nodup := hg.nodes_nodup.filter _
  have hmem : ∀ x, x ∈ g.nodes.filter (fun v => !p.hasNode v) ↔ x ∈ g.nodes ∧ p.get x = none := by
    intro x; rw [List.mem_filter, ← hasNode_false]; simp
  generalize hL : g.nodes.filter (fun v => !p.hasNode v) = L at hnd hmem
  obtain ⟨f, e, h1, h2⟩ := foldlM_inv_ok (f := fun (f : Forest) (v : Nat) => f.addRoot v)
    (fun pre f => (∀ x, HMap.get f.parents x = if x ∈ pre then some ⟨none, true⟩ else none) ∧ f.nodes = pre) L
    (b := Forest.new) (by
      rintro pre a post f hL ⟨h1, h2⟩
      rw [hL, List.nodup_append] at hnd
      have ha : a ∉ pre := fun h => hnd.2.2 a h a (by simp) rfl
      refine ⟨{ parents := f.parents.insert a ⟨none, true⟩, nodes := f.nodes ++ [a] }, ?_, ?_, ?_⟩
      · simp only [Forest.addRoot, h1 a, ha, if_false]
      · intro x
        simp only [HMap.get_insert, h1, List.mem_append, List.mem_singleton]
        by_cases c : x = a <;> simp [c]
      · simp [h2]) ⟨fun x => by simp [Forest.new], rfl⟩
  refine ⟨f, e, ?_⟩
  have one : ∀ x, ((if x ∈ L then [x] else [] : List Nat)).length % 2 = 0 → x ∉ L := by
    intro x hx hm; simp [hm] at hx
  refine ⟨?_, ?_, ?_, ?_, ?_, ?_, ?_, ?_⟩
  · intro x; rw [h1]; by_cases c : x ∈ L <;> simp [c, entryOf]
  · intro x; rw [h2]; by_cases c : x ∈ L <;> simp [c]
  · intro x hx
    by_cases c : x ∈ L
    · exact ((hmem x).1 c).1
    · simp [c] at hx
  · intro x hx
    by_cases c : x ∈ L
    · left; simp only [c, if_true]; exact ⟨trivial, ((hmem x).1 c).2⟩
    · simp [c] at hx
  · intro x; by_cases c : x ∈ L <;> simp [c]
  · intro x q' hx hq hodd
    by_cases c : x ∈ L
    · simp only [c, if_true, List.cons.injEq, true_and] at hx; exact absurd hx.symm hq
    · simp [c] at hx
  · intro x hev hx
    have := one x hev
    simp [this] at hx
  · intro x hx hn
    have : x ∈ L := (hmem x).2 ⟨hx, hn⟩
    simp [this]

/-- The search of `augmenting_path`, up to the edge between even nodes it finds: the node `v` it looks at, the path from the
other end to its root, and the forest. -/
def apTrace (ord : HashOrder) (n : Nat) (g : GraphI) (p : Pairing) : Out (Option (Nat × List Nat × Forest)) :=
  (p.edges ord).foldlM (fun m e => m.markEdge e.1 e.2) Marker.new >>= fun marker =>
    (g.nodes.filter (fun v => !p.hasNode v)).foldlM (fun f v => f.addRoot v) Forest.new >>= fun forest =>
      apOuterG (fun v pw f => .ok (some (v, pw, f))) none n g p n forest marker

theorem augmentingPath_eq_trace (ords : Nat → HashOrder) (n : Nat) :
    augmentingPath pf ords (n + 1) g p = (apTrace (ords n) n g p >>= fun r =>
      match r with
      | none => .ok none
      | some (v, pw, f) => evenPath pf (ords n) n (augmentingPath pf ords n) v pw g f p) := by
  unfold augmentingPath apTrace
  simp only [bind_assoc]
  congr 1; funext marker
  congr 1; funext forest
  rw [apOuter_eq]
  exact apOuterG_bind (fun v pw f => .ok (some (v, pw, f))) none (fun r => match r with
      | none => .ok none
      | some (v, pw, f) => evenPath pf (ords n) n (augmentingPath pf ords n) v pw g f p) none rfl n forest marker

/-- The search either finds nothing, with a certificate, or reaches an edge between even nodes; and so it does if
the nodes have other names. -/
theorem apTrace_ren (ha : GraphI.AlongBut φ g h p) (hp : p.Matches g) (hq : q.Symmetric)
    (hpq : ∀ v ∈ g.nodes, q.get (φ v) = (p.get v).map φ)
    {ord ord' : HashOrder} (ho : ord.Valid) (ho' : ord'.Valid) (n : Nat) :
    (apTrace ord n g p = .ok none ∧ apTrace ord' n h q = .ok none ∧ ∃ A c, Cert g p A c) ∨
    (∃ f1 P1 v w, EvenEdge g p f1 P1 v w ∧ apTrace ord n g p = .ok (some (v, P1 w, f1)) ∧
      apTrace ord' n h q = .ok (some (φ v, (P1 w).map φ, f1.ren φ))) ∨
    (apTrace ord n g p = .timeout ∧ apTrace ord' n h q = .timeout ∧ n ≤ g.nodes.length) := by
  have hφ := ha.inj
  obtain ⟨m, e1, n1, h1⟩ := Marker.init_ok hp.symmetric ho
  obtain ⟨m', e1', n1', h1'⟩ := Marker.init_ok hq ho'
  obtain ⟨f, e2, hF⟩ := roots_ok ha.lawful p
  have hfq : (h.nodes.filter (fun v => !q.hasNode v)) = (g.nodes.filter (fun v => !p.hasNode v)).map φ := by
    rw [ha.nodes, List.filter_map]
    congr 1
    refine List.filter_congr (fun v hv => ?_)
    show (!q.hasNode (φ v)) = !p.hasNode v
    rw [hasNode_eq, hasNode_eq, hpq v hv, Option.isSome_map]
  have e2' : ((g.nodes.filter (fun v => !p.hasNode v)).map φ).foldlM (fun (f : Forest) v => f.addRoot v) Forest.new = .ok (f.ren φ) := by
    have key : ∀ (l : List Nat) (f : Forest), (l.map φ).foldlM (fun (f : Forest) v => f.addRoot v) (f.ren φ) =
        (l.foldlM (fun (f : Forest) v => f.addRoot v) f).ren φ (Forest.ren φ) := by
      intro l
      induction l with
      | nil => intro f; rfl
      | cons x l ih =>
        intro f
        rw [List.map_cons, List.foldlM_cons, List.foldlM_cons, Forest.addRoot_ren hφ]
        exact Out.bind_ren _ (fun y => ih y)
    have := key (g.nodes.filter (fun v => !p.hasNode v)) Forest.new
    rw [e2] at this
    exact this
  unfold apTrace
  rw [e1, e1', hfq, Out.ok_bind, Out.ok_bind, e2, e2', Out.ok_bind, Out.ok_bind]
  have hsame : Marker.Same φ g.nodes m m' := by
    refine ⟨by rw [n1, n1']; rfl, fun u hu w => ?_⟩
    rw [Bool.eq_iff_iff, h1, h1', hpq u hu]
    constructor
    · intro e
      obtain ⟨z, ez, e⟩ := Option.map_eq_some_iff.1 e
      rw [ez, hφ e]
    · intro e; rw [e]; rfl
  have hI : SInv g p f _ m := ⟨hF, fun u w h => (h1 u w).2 h, fun u w h => .inl ((h1 u w).1 h), fun u hu => by
    unfold Marker.hasNode at hu; rw [n1] at hu; simp at hu⟩
  rcases apOuter_spec (ev := fun v pw f => .ok (some (v, pw, f))) (ev' := fun v pw f => .ok (some (v, pw, f))) (d := none) (d' := none)
    (fuel0 := n) ha hp hpq n f _ m m' hI hsame with h | h | ⟨h1, h2, h3⟩
  · exact .inl h
  · exact .inr (.inl h)
  · refine .inr (.inr ⟨h1, h2, ?_⟩)
    rcases h3 with h3 | h3
    · exact h3
    · exact h3.trans List.countP_le_length

/-- `augmenting_path` either finds nothing, with a certificate, or reaches an edge between even nodes; and so it does if
the nodes have other names. -/
theorem augmentingPath_search_ren (ha : GraphI.AlongBut φ g h p) (hp : p.Matches g) (hq : q.Symmetric)
    (hpq : ∀ v ∈ g.nodes, q.get (φ v) = (p.get v).map φ)
    {ords ords' : Nat → HashOrder} (ho : ∀ i, (ords i).Valid) (ho' : ∀ i, (ords' i).Valid) (n : Nat) :
    (augmentingPath pf ords (n + 1) g p = .ok none ∧ augmentingPath pf ords' (n + 1) h q = .ok none ∧
      ∃ A c, Cert g p A c) ∨
    (∃ f1 P1 v w, EvenEdge g p f1 P1 v w ∧
      augmentingPath pf ords (n + 1) g p =
        evenPath pf (ords n) n (augmentingPath pf ords n) v (P1 w) g f1 p ∧
      augmentingPath pf ords' (n + 1) h q =
        evenPath pf (ords' n) n (augmentingPath pf ords' n) (φ v) ((P1 w).map φ) h (f1.ren φ) q) ∨
    (augmentingPath pf ords (n + 1) g p = .timeout ∧ augmentingPath pf ords' (n + 1) h q = .timeout ∧
      n ≤ g.nodes.length) := by
  rw [augmentingPath_eq_trace, augmentingPath_eq_trace]
  rcases apTrace_ren ha hp hq hpq (ho n) (ho' n) n with ⟨h1, h2, h3⟩ | ⟨f1, P1, v, w, hE, h1, h2⟩ | ⟨h1, h2, h3⟩
  · rw [h1, h2]; exact .inl ⟨rfl, rfl, h3⟩
  · rw [h1, h2]; exact .inr (.inl ⟨f1, P1, v, w, hE, rfl, rfl⟩)
  · rw [h1, h2]; exact .inr (.inr ⟨rfl, rfl, h3⟩)

/-- `augmenting_path` either finds nothing, with a certificate, or reaches an edge between even nodes. -/
theorem augmentingPath_search (hg : g.Lawful) (hp : p.Matches g) (hq : q.Symmetric) (hpq : ∀ v ∈ g.nodes, p.get v = q.get v)
    {ords ords' : Nat → HashOrder} (ho : ∀ i, (ords i).Valid) (ho' : ∀ i, (ords' i).Valid) (n : Nat) :
    (augmentingPath pf ords (n + 1) g p = .ok none ∧ augmentingPath pf ords' (n + 1) g q = .ok none ∧
      ∃ A c, Cert g p A c) ∨
    (∃ f1 P1 v w, EvenEdge g p f1 P1 v w ∧
      augmentingPath pf ords (n + 1) g p =
        evenPath pf (ords n) n (augmentingPath pf ords n) v (P1 w) g f1 p ∧
      augmentingPath pf ords' (n + 1) g q =
        evenPath pf (ords' n) n (augmentingPath pf ords' n) v (P1 w) g f1 q) ∨
    (augmentingPath pf ords (n + 1) g p = .timeout ∧ augmentingPath pf ords' (n + 1) g q = .timeout ∧
      n ≤ g.nodes.length) := by
  rcases augmentingPath_search_ren (pf := pf) ((GraphI.Along.refl hg).but p) hp hq (fun v hv => by simp [hpq v hv]) ho ho' n with
    h | ⟨f1, P1, v, w, h1, h2, h3⟩ | h
  · exact .inl h
  · rw [List.map_id, Forest.ren_id] at h3
    exact .inr (.inl ⟨f1, P1, v, w, h1, h2, h3⟩)
  · exact .inr (.inr h)

end
end Gamma
