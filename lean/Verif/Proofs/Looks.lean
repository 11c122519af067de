import Verif.Proofs.Cost
import Mathlib.Data.Set.Card
/-
How often `augmenting_path` asks for neighbors.
-/
namespace Gamma
open Pairing Blossom

/-! ### Counting changes nothing -/
section
variable {g : GraphI} {pf : Platform} {p : Pairing} {ord : HashOrder} {fuel0 : Nat}
  {rec : GraphI → Pairing → Out (Option (List Nat))} {recL : GraphI → Pairing → Out (Option (List Nat) × List Nat)}

theorem processBlossomLooks_eq (hr : ∀ g p, rec g p = (recL g p >>= fun r => .ok r.1)) (left right : List Nat) :
    processBlossom pf ord fuel0 rec left right g p =
      (processBlossomLooks pf ord fuel0 recL left right g p >>= fun r => .ok r.1) := by
  unfold processBlossom processBlossomLooks
  simp only [bind_assoc]
  congr 1; funext maxId
  congr 1; funext id
  congr 1; funext b
  congr 1; funext cg
  rw [hr, bind_assoc]
  congr 1; funext r
  obtain ⟨r, k⟩ := r
  cases r with
  | none => rfl
  | some path => simp only [Out.ok_bind, bind_assoc]

theorem evenPathLooks_eq (hr : ∀ g p, rec g p = (recL g p >>= fun r => .ok r.1)) (v : Nat) (pw : List Nat) (f : Forest) :
    evenPath pf ord fuel0 rec v pw g f p = (evenPathLooks pf ord fuel0 recL v pw g f p >>= fun r => .ok r.1) := by
  unfold evenPath evenPathLooks
  rw [bind_assoc]
  congr 1; funext pv
  cases pv with
  | none => rfl
  | some pathV =>
    simp only
    split
    · exact processBlossomLooks_eq hr _ _
    · rfl

/-- Forgetting the count. -/
def Flow.forget : Flow (Option (List Nat) × List Nat) (Forest × Marker × Nat) → Flow (Option (List Nat)) (Forest × Marker)
  | .ret r => .ret r.1
  | .fall s => .fall (s.1, s.2.1)

theorem apInnerLooks_eq (hr : ∀ g p, rec g p = (recL g p >>= fun r => .ok r.1)) (v : Nat) (n : Nat) :
    ∀ (f : Forest) (m : Marker) (k : Nat), apInner pf ord fuel0 rec g p v n f m =
      (apInnerLooks pf ord fuel0 recL g p v n f m k >>= fun r => .ok r.forget) := by
  induction n with
  | zero => intros; rfl
  | succ n ih =>
    intro f m k
    unfold apInner apInnerLooks
    rw [bind_assoc]
    congr 1; funext ow
    cases ow with
    | none => rfl
    | some w =>
      simp only
      rw [bind_assoc]
      congr 1; funext pw
      cases pw with
      | none =>
        simp only [bind_assoc]
        congr 1; funext f1
        congr 1; funext mw
        congr 1; funext f2
        congr 1; funext m1
        exact ih _ _ _
      | some pathW =>
        simp only
        split
        · rw [evenPathLooks_eq hr]
          simp only [bind_assoc, Out.ok_bind]; rfl
        · simp only [bind_assoc]
          congr 1; funext m1
          exact ih _ _ _

theorem apOuterLooks_eq (hr : ∀ g p, rec g p = (recL g p >>= fun r => .ok r.1)) (n : Nat) :
    ∀ (f : Forest) (m : Marker) (k : Nat), apOuter pf ord fuel0 rec g p n f m =
      (apOuterLooks pf ord fuel0 recL g p n f m k >>= fun r => .ok r.1) := by
  induction n with
  | zero => intros; rfl
  | succ n ih =>
    intro f m k
    unfold apOuter apOuterLooks
    rw [bind_assoc]
    congr 1; funext ov
    cases ov with
    | none => rfl
    | some v =>
      simp only
      rw [apInnerLooks_eq hr v fuel0 f m k, bind_assoc, bind_assoc]
      congr 1; funext fl
      cases fl with
      | ret r => rfl
      | fall s =>
        obtain ⟨f1, m1, k1⟩ := s
        simp only [Flow.forget, Out.ok_bind, bind_assoc]
        congr 1; funext m2
        exact ih _ _ _

theorem augmentingPathLooks_eq (ords : Nat → HashOrder) (n : Nat) : ∀ (g : GraphI) (p : Pairing),
    augmentingPath pf ords n g p = (augmentingPathLooks pf ords n g p >>= fun r => .ok r.1) := by
  induction n with
  | zero => intros; rfl
  | succ n ih =>
    intro g p
    unfold augmentingPath augmentingPathLooks
    simp only [bind_assoc]
    congr 1; funext marker
    congr 1; funext forest
    exact apOuterLooks_eq ih n _ _ _

theorem maximumMatchingLooks_eq (n : Nat) : ∀ (ords : List Bool → Nat → HashOrder) (p : Pairing),
    maximumMatching pf n ords g p = (maximumMatchingLooks pf n ords g p >>= fun r => .ok r.1) := by
  induction n with
  | zero => intros; rfl
  | succ n ih =>
    intro ords p
    unfold maximumMatching maximumMatchingLooks
    rw [augmentingPathLooks_eq, bind_assoc, bind_assoc]
    congr 1; funext r
    obtain ⟨r, k⟩ := r
    cases r with
    | none => rfl
    | some path =>
      simp only [Out.ok_bind, bind_assoc]
      congr 1; funext p1
      rw [ih, bind_assoc]
      congr 1; funext r2
      obtain ⟨p2, k2⟩ := r2
      rw [Out.ok_bind, ih]

/-! ### The count of one call -/

/-- The edges of the graph that the marker has not marked. -/
def Marker.rest (m : Marker) (g : GraphI) : Set (Sym2 Nat) :=
  {e | e ∈ g.simple.edgeSet ∧ ∀ u w, e = s(u, w) → m.hasEdge u w = false}

/-- The edges of the graph whose ends are not mates. -/
def Pairing.rest (p : Pairing) (g : GraphI) : Set (Sym2 Nat) :=
  {e | e ∈ g.simple.edgeSet ∧ ∀ u w, e = s(u, w) → p.get u ≠ some w}

theorem GraphI.Lawful.edge_iff (hg : g.Lawful) {u v : Nat} : s(u, v) ∈ g.simple.edgeSet ↔ u ≠ v ∧ g.Adj u v := by
  rw [SimpleGraph.mem_edgeSet]
  unfold GraphI.simple
  rw [SimpleGraph.fromRel_adj]
  exact ⟨fun h => ⟨h.1, h.2.elim _root_.id (hg.adj_symm _ _)⟩, fun h => ⟨h.1, .inl h.2⟩⟩

/-- `edges()` as a set. -/
theorem GraphI.Lawful.edgeSet_sub (hg : g.Lawful) :
    g.simple.edgeSet ⊆ ((g.edges.map (fun e => s(e.1, e.2))).toFinset : Set (Sym2 Nat)) := by
  intro e
  induction e with | _ u v =>
  intro h
  rw [hg.edge_iff] at h
  simp only [List.coe_toFinset, List.mem_map, Set.mem_setOf_eq]
  rcases hg.adj_edges u v h.1 h.2 with h1 | h1
  · exact ⟨_, h1, rfl⟩
  · exact ⟨_, h1, Sym2.eq_swap⟩

theorem GraphI.Lawful.edgeSet_finite (hg : g.Lawful) : g.simple.edgeSet.Finite :=
  (Finset.finite_toSet _).subset hg.edgeSet_sub

theorem GraphI.Lawful.ncard_edgeSet (hg : g.Lawful) : g.simple.edgeSet.ncard ≤ g.size := by
  refine (Set.ncard_le_ncard hg.edgeSet_sub (Finset.finite_toSet _)).trans ?_
  rw [Set.ncard_coe_finset, hg.size_eq]
  exact (List.toFinset_card_le _).trans (by simp)

theorem Marker.rest_finite (hg : g.Lawful) (m : Marker) : (m.rest g).Finite := hg.edgeSet_finite.subset (fun _ h => h.1)
theorem Pairing.rest_finite (hg : g.Lawful) (p : Pairing) : (p.rest g).Finite := hg.edgeSet_finite.subset (fun _ h => h.1)

theorem Marker.rest_mark (hg : g.Lawful) {m m1 : Marker} {v w : Nat} (hsym : ∀ a b, m.hasEdge a b = true → m.hasEdge b a = true)
    (he1 : ∀ u z, m1.hasEdge u z = true ↔ m.hasEdge u z = true ∨ (u = v ∧ z = w) ∨ (u = w ∧ z = v))
    (hw : m.hasEdge v w = false) (hne : v ≠ w) (ha : g.Adj v w) : (m1.rest g).ncard + 1 ≤ (m.rest g).ncard := by
  have hin : s(v, w) ∈ m.rest g := by
    refine ⟨hg.edge_iff.2 ⟨hne, ha⟩, fun a b e => ?_⟩
    rcases Sym2.eq_iff.1 e with ⟨rfl, rfl⟩ | ⟨rfl, rfl⟩
    · exact hw
    · rw [Bool.eq_false_iff]; intro h; rw [hsym _ _ h] at hw; cases hw
  have hlt : (m1.rest g).ncard < (m.rest g).ncard := by
    refine Set.ncard_lt_ncard ⟨fun e he => ⟨he.1, fun a b eq => ?_⟩, fun hsub => ?_⟩ (m.rest_finite hg)
    · rw [Bool.eq_false_iff]; intro h
      have := he.2 a b eq
      rw [(he1 a b).2 (.inl h)] at this; cases this
    · have := (hsub hin).2 v w rfl
      rw [(he1 v w).2 (.inr (.inl ⟨rfl, rfl⟩))] at this; cases this
  omega

/-- The inner loop, up to the edge between even nodes it finds, with the count. -/
def apInnerT (fuel0 : Nat) (g : GraphI) (p : Pairing) (v : Nat) :
    (fuel : Nat) → Forest → Marker → Nat → Out (Flow ((Nat × List Nat × Forest) × Nat) (Forest × Marker × Nat))
  | 0, _, _, _ => .timeout
  | n + 1, f, m, k =>
    someW v g m >>= fun ow =>
      match ow with
      | none => .ok (.fall (f, m, k + 1))
      | some w =>
        f.path fuel0 w >>= fun pw =>
          match pw with
          | some pathW =>
            if pathW.length % 2 == 1 then .ok (.ret ((v, pathW, f), k + 1))
            else m.markEdge v w >>= fun m1 => apInnerT fuel0 g p v n f m1 (k + 1)
          | none =>
            f.addEdge v w >>= fun f1 =>
              p.mate w >>= fun mw =>
                f1.addEdge w mw >>= fun f2 =>
                  m.markEdge v w >>= fun m1 => apInnerT fuel0 g p v n f2 m1 (k + 1)

/-- The outer loop likewise. -/
def apOuterT (fuel0 : Nat) (g : GraphI) (p : Pairing) :
    (fuel : Nat) → Forest → Marker → Nat → Out (Option (Nat × List Nat × Forest) × Nat)
  | 0, _, _, _ => .timeout
  | n + 1, f, m, k =>
    someV f m >>= fun ov =>
      match ov with
      | none => .ok (none, k)
      | some v =>
        apInnerT fuel0 g p v fuel0 f m k >>= fun fl =>
          match fl with
          | .ret r => .ok (some r.1, r.2)
          | .fall s => s.2.1.markNode v >>= fun m2 => apOuterT fuel0 g p n s.1 m2 s.2.2

theorem apInnerLooks_eq_trace (v : Nat) (n : Nat) : ∀ (f : Forest) (m : Marker) (k : Nat),
    apInnerLooks pf ord fuel0 recL g p v n f m k = (apInnerT fuel0 g p v n f m k >>= fun fl =>
      match fl with
      | .ret r => evenPathLooks pf ord fuel0 recL r.1.1 r.1.2.1 g r.1.2.2 p >>= fun s => .ok (.ret (s.1, r.2 :: s.2))
      | .fall s => .ok (.fall s)) := by
  induction n with
  | zero => intros; rfl
  | succ n ih =>
    intro f m k
    unfold apInnerLooks apInnerT
    rw [bind_assoc]
    congr 1; funext ow
    cases ow with
    | none => rfl
    | some w =>
      simp only
      rw [bind_assoc]
      congr 1; funext pw
      cases pw with
      | none => simp only [bind_assoc, ih]
      | some pathW =>
        simp only
        split
        · rfl
        · simp only [bind_assoc, ih]

theorem apOuterLooks_eq_trace (n : Nat) : ∀ (f : Forest) (m : Marker) (k : Nat),
    apOuterLooks pf ord fuel0 recL g p n f m k = (apOuterT fuel0 g p n f m k >>= fun r =>
      match r with
      | (none, k) => .ok (none, [k])
      | (some (v, pw, f), k) => evenPathLooks pf ord fuel0 recL v pw g f p >>= fun s => .ok (s.1, k :: s.2)) := by
  induction n with
  | zero => intros; rfl
  | succ n ih =>
    intro f m k
    unfold apOuterLooks apOuterT
    rw [bind_assoc]
    congr 1; funext ov
    cases ov with
    | none => rfl
    | some v =>
      simp only
      rw [apInnerLooks_eq_trace, bind_assoc, bind_assoc]
      congr 1; funext fl
      cases fl with
      | ret r =>
        obtain ⟨⟨a, b, c⟩, k⟩ := r
        simp only [bind_assoc, Out.ok_bind]
      | fall s =>
        obtain ⟨f1, m1, k1⟩ := s
        simp only [Out.ok_bind, bind_assoc, ih]

theorem apInnerT_spec (hg : g.Lawful) (hp : p.Matches g) {v : Nat} (n : Nat) :
    ∀ (f : Forest) (P : Nat → List Nat) (m : Marker) (k : Nat), SInv g p f P m →
    (∀ a b, m.hasEdge a b = true → m.hasEdge b a = true) → (P v).length % 2 = 1 →
    (∃ f1 P1 m1 c, apInnerT fuel0 g p v n f m k = .ok (.fall (f1, m1, k + c + 1)) ∧ SInv g p f1 P1 m1 ∧
      (∀ x, P x ≠ [] → P1 x = P x) ∧ (∀ a b, m1.hasEdge a b = true → m1.hasEdge b a = true) ∧ m1.nodes = m.nodes ∧
      (∀ w, g.Adj v w → m1.hasEdge v w = true) ∧ (m1.rest g).ncard + c ≤ (m.rest g).ncard) ∨
    (∃ f1 P1 w c, EvenEdge g p f1 P1 v w ∧ apInnerT fuel0 g p v n f m k = .ok (.ret ((v, P1 w, f1), k + c + 1)) ∧
      (∀ x, P x ≠ [] → P1 x = P x) ∧ c ≤ (m.rest g).ncard) ∨
    apInnerT fuel0 g p v n f m k = .timeout := by
  induction n with
  | zero => intro f P m k _ _ _; exact .inr (.inr rfl)
  | succ n ih =>
    intro f P m k hI hsym hv
    have hF := hI.forest
    have hv0 : P v ≠ [] := by intro e; rw [e] at hv; simp at hv
    have hvn : v ∈ g.nodes := hF.sub v hv0
    unfold apInnerT
    rw [someW_eq hg hvn, Out.ok_bind]
    cases hw : (g.nbr v).find? (fun id => !m.hasEdge v id) with
    | none =>
      left
      refine ⟨f, P, m, 0, rfl, hI, fun _ _ => rfl, hsym, rfl, fun w ha => ?_, le_rfl⟩
      rw [List.find?_eq_none] at hw
      have := hw w (GraphI.mem_nbr.2 ha)
      simpa using this
    | some w =>
      have hw1 := List.find?_some hw
      simp only [Bool.not_eq_true'] at hw1
      have hadj : g.Adj v w := GraphI.mem_nbr.1 (List.mem_of_find?_eq_some hw)
      have hwn : w ∈ g.nodes := hg.adj_mem _ _ hadj
      simp only
      rw [hF.path w fuel0]
      by_cases hfu : fuel0 < (P w).length
      · rw [if_pos hfu]; exact .inr (.inr rfl)
      rw [if_neg hfu, Out.ok_bind]
      obtain ⟨m1, e1, hn1, he1⟩ := Marker.markEdge_ok hw1
      have hsym1 : ∀ a b, m1.hasEdge a b = true → m1.hasEdge b a = true := by
        intro a b h
        rcases (he1 a b).1 h with h | ⟨rfl, rfl⟩ | ⟨rfl, rfl⟩
        · exact (he1 b a).2 (.inl (hsym a b h))
        · exact (he1 _ _).2 (.inr (.inr ⟨rfl, rfl⟩))
        · exact (he1 _ _).2 (.inr (.inl ⟨rfl, rfl⟩))
      -- what follows a marking
      have next : ∀ (f2 : Forest) (P2 : Nat → List Nat), FInv g p f2 P2 → (∀ x, P x ≠ [] → P2 x = P x) → OddN P2 w →
          SInv g p f2 P2 m1 ∧ (P2 v).length % 2 = 1 := by
        intro f2 P2 hF2 hold hodd
        have oldOdd : ∀ x, OddN P x → OddN P2 x := by
          intro x hx
          unfold OddN; rw [hold x hx.1]; exact hx
        refine ⟨⟨hF2, fun u z huz => (he1 u z).2 (.inl (hI.pairs u z huz)), ?_, ?_⟩, by rw [hold v hv0]; exact hv⟩
        · intro u z huz
          rcases (he1 u z).1 huz with h | ⟨rfl, rfl⟩ | ⟨rfl, rfl⟩
          · rcases hI.edges u z h with h | h | h
            · exact .inl h
            · exact .inr (.inl (oldOdd _ h))
            · exact .inr (.inr (oldOdd _ h))
          · exact .inr (.inl hodd)
          · exact .inr (.inr hodd)
        · intro u hu z haz
          have hu' : m.hasNode u = true := by
            unfold Marker.hasNode at hu ⊢; rw [← hn1]; exact hu
          exact (he1 u z).2 (.inl (hI.done u hu' z haz))
      have wrap : ∀ (f2 : Forest) (P2 : Nat → List Nat), FInv g p f2 P2 → (∀ x, P x ≠ [] → P2 x = P x) → OddN P2 w →
          (∃ f1 P1 m3 c, apInnerT fuel0 g p v n f2 m1 (k + 1) = .ok (.fall (f1, m3, k + c + 1)) ∧ SInv g p f1 P1 m3 ∧
            (∀ x, P x ≠ [] → P1 x = P x) ∧ (∀ a b, m3.hasEdge a b = true → m3.hasEdge b a = true) ∧ m3.nodes = m.nodes ∧
            (∀ w, g.Adj v w → m3.hasEdge v w = true) ∧ (m3.rest g).ncard + c ≤ (m.rest g).ncard) ∨
          (∃ f1 P1 w c, EvenEdge g p f1 P1 v w ∧ apInnerT fuel0 g p v n f2 m1 (k + 1) = .ok (.ret ((v, P1 w, f1), k + c + 1)) ∧
            (∀ x, P x ≠ [] → P1 x = P x) ∧ c ≤ (m.rest g).ncard) ∨
          apInnerT fuel0 g p v n f2 m1 (k + 1) = .timeout := by
        intro f2 P2 hF2 hold hodd
        obtain ⟨h1, h2⟩ := next f2 P2 hF2 hold hodd
        have hne : v ≠ w := by rintro rfl; have := hodd.2; omega
        have hr := Marker.rest_mark hg hsym he1 hw1 hne hadj
        have ext : ∀ P1 : Nat → List Nat, (∀ x, P2 x ≠ [] → P1 x = P2 x) → ∀ x, P x ≠ [] → P1 x = P x := by
          intro P1 h x hx
          rw [h x (by rw [hold x hx]; exact hx), hold x hx]
        rcases ih f2 P2 m1 (k + 1) h1 hsym1 h2 with ⟨a, b, c, d, k1, k2, k7, k3, k4, k5, k6⟩ | ⟨a, b, c, d, k1, k2, k7, k3⟩ | k1
        · refine .inl ⟨a, b, c, d + 1, ?_, k2, ext b k7, k3, by rw [k4, hn1], k5, by omega⟩
          rw [k1, show k + 1 + d + 1 = k + (d + 1) + 1 by omega]
        · refine .inr (.inl ⟨a, b, c, d + 1, k1, ?_, ext b k7, by omega⟩)
          rw [k2, show k + 1 + d + 1 = k + (d + 1) + 1 by omega]
        · exact .inr (.inr k1)
      by_cases hPw : P w = []
      · -- an unvisited node: it has a mate
        simp only [hPw, if_true]
        obtain ⟨mw, hmw⟩ : ∃ mw, p.get w = some mw := by
          cases hc : p.get w with
          | none => exact absurd hPw (hF.roots w hwn hc)
          | some mw => exact ⟨mw, rfl⟩
        obtain ⟨f1, f2, P2, a1, a2, hF2, hP2w, hold⟩ := hF.grow hg hp hv hadj hPw hmw
        have hodd : OddN P2 w := by
          unfold OddN; rw [hP2w]; refine ⟨by simp, ?_⟩
          simp; omega
        rw [a1, Out.ok_bind, mate_of_some hmw, Out.ok_bind, a2, Out.ok_bind, e1, Out.ok_bind]
        exact wrap f2 P2 hF2 hold hodd
      · simp only [hPw, if_false]
        by_cases hev : (P w).length % 2 = 1
        · right; left
          exact ⟨f, P, w, 0, ⟨hF, hadj, hv, hev⟩, by simp [hev], fun _ _ => rfl, Nat.zero_le _⟩
        · have hodd : OddN P w := ⟨hPw, by omega⟩
          have hb : ((P w).length % 2 == 1) = false := by simpa using hev
          simp only [hb, Bool.false_eq_true, if_false]
          rw [e1, Out.ok_bind]
          exact wrap f P hF (fun _ _ => rfl) hodd

/-- Of two mates at most one is at even distance from its root. -/
theorem FInv.even_le {f : Forest} {P : Nat → List Nat} (h : FInv g p f P) (hg : g.Lawful) (hp : p.Matches g) {D : List Nat} (hD : D.Nodup)
    (he : ∀ x ∈ D, (P x).length % 2 = 1) : 2 * D.length + p.order ≤ 2 * g.nodes.length := by
  have hs := hp.symmetric
  have hin : ∀ x ∈ D, x ∈ g.nodes := fun x hx => h.sub x (by intro e; have := he x hx; rw [e] at this; simp at this)
  have hk : (p.pairs.map Prod.fst).length = p.order := by simp [Pairing.order]
  have hkey : ∀ x, x ∈ p.pairs.map Prod.fst ↔ ∃ y, p.get x = some y := fun x => keys_mem.trans hasNode_iff
  have h1 : (D.filter (fun x => !p.hasNode x)).length + p.order ≤ g.nodes.length := by
    have : ((D.filter (fun x => !p.hasNode x)) ++ p.pairs.map Prod.fst).Subperm g.nodes := by
      refine List.Nodup.subperm ?_ ?_
      · rw [List.nodup_append]
        refine ⟨hD.filter _, by simpa using hs.keys_nodup, ?_⟩
        rintro x hx _ hy rfl
        have := keys_mem.1 hy
        simp [this] at hx
      · intro x hx
        rcases List.mem_append.1 hx with hx | hx
        · exact hin x (List.mem_filter.1 hx).1
        · obtain ⟨y, hy⟩ := (hkey x).1 hx
          exact hg.adj_src (hp.adj' hy)
    have := this.length_le
    rw [List.length_append, hk] at this
    exact this
  have h2 : 2 * (D.filter (fun x => p.hasNode x)).length ≤ p.order := by
    have : ((D.filter (fun x => p.hasNode x)) ++ (D.filter (fun x => p.hasNode x)).map (fun x => (p.get x).getD 0)).Subperm
        (p.pairs.map Prod.fst) := by
      refine List.Nodup.subperm ?_ ?_
      · rw [List.nodup_append]
        refine ⟨hD.filter _, (hD.filter _).map_on ?_, ?_⟩
        · intro x hx y hy e
          obtain ⟨a, ha⟩ := hasNode_iff.1 (List.mem_filter.1 hx).2
          obtain ⟨b, hb⟩ := hasNode_iff.1 (List.mem_filter.1 hy).2
          rw [ha, hb] at e
          simp only [Option.getD_some] at e
          subst e
          have := hs.get_get ha
          rw [hs.get_get hb] at this
          exact (Option.some.inj this).symm
        · rintro x hx z hz rfl
          obtain ⟨y, hy, e⟩ := List.mem_map.1 hz
          obtain ⟨a, ha⟩ := hasNode_iff.1 (List.mem_filter.1 hy).2
          rw [ha] at e
          simp only [Option.getD_some] at e
          subst e
          have e1 := he y (List.mem_filter.1 hy).1
          have e2 := he a (List.mem_filter.1 hx).1
          rw [(h.mate_even e1 ha).1, List.length_cons] at e1
          omega
      · intro x hx
        rw [hkey]
        rcases List.mem_append.1 hx with hx | hx
        · exact hasNode_iff.1 (List.mem_filter.1 hx).2
        · obtain ⟨y, hy, rfl⟩ := List.mem_map.1 hx
          obtain ⟨a, ha⟩ := hasNode_iff.1 (List.mem_filter.1 hy).2
          rw [ha]
          exact ⟨y, hs.get_get ha⟩
    have := this.length_le
    rw [List.length_append, List.length_map, hk] at this
    omega
  have h3 := List.length_eq_length_filter_add (l := D) (fun x => p.hasNode x)
  omega

theorem apOuterT_spec (hg : g.Lawful) (hp : p.Matches g) (n : Nat) :
    ∀ (f : Forest) (P : Nat → List Nat) (m : Marker) (k : Nat), SInv g p f P m →
    (∀ a b, m.hasEdge a b = true → m.hasEdge b a = true) → m.nodes.Nodup → (∀ x ∈ m.nodes, (P x).length % 2 = 1) →
    (∃ (c : Nat) (D : List Nat) (f1 : Forest) (P1 : Nat → List Nat), apOuterT fuel0 g p n f m k = .ok (none, k + c) ∧ FInv g p f1 P1 ∧ D.Nodup ∧ (∀ x ∈ D, (P1 x).length % 2 = 1) ∧
      c + m.nodes.length ≤ (m.rest g).ncard + D.length) ∨
    (∃ (f1 : Forest) (P1 : Nat → List Nat) (v w c : Nat) (D : List Nat), EvenEdge g p f1 P1 v w ∧ apOuterT fuel0 g p n f m k = .ok (some (v, P1 w, f1), k + c) ∧
      D.Nodup ∧ (∀ x ∈ D, (P1 x).length % 2 = 1) ∧ c + m.nodes.length ≤ (m.rest g).ncard + D.length) ∨
    apOuterT fuel0 g p n f m k = .timeout := by
  induction n with
  | zero => intro f P m k _ _ _ _; exact .inr (.inr rfl)
  | succ n ih =>
    intro f P m k hI hsym hnd hev
    have hF := hI.forest
    unfold apOuterT
    rw [hF.someV m, Out.ok_bind]
    cases hv : (f.nodes.filter (fun x => (P x).length % 2 == 1)).find? (fun x => !m.hasNode x) with
    | none => exact .inl ⟨0, m.nodes, f, P, rfl, hF, hnd, hev, by omega⟩
    | some v =>
      have hv1 := List.find?_some hv
      simp only [Bool.not_eq_true'] at hv1
      have hvm := List.mem_of_find?_eq_some hv
      rw [List.mem_filter] at hvm
      have hve : (P v).length % 2 = 1 := by simpa using hvm.2
      have hv2 : v ∉ m.nodes := by
        unfold Marker.hasNode at hv1
        intro h; rw [List.contains_iff_mem.2 h] at hv1; cases hv1
      have hne : ∀ x ∈ v :: m.nodes, (P x).length % 2 = 1 ∧ P x ≠ [] := by
        intro x hx
        have : (P x).length % 2 = 1 := by
          rcases List.mem_cons.1 hx with rfl | hx
          · exact hve
          · exact hev x hx
        exact ⟨this, fun e => by rw [e] at this; simp at this⟩
      have hD : (v :: m.nodes).Nodup := List.nodup_cons.2 ⟨hv2, hnd⟩
      simp only
      rcases apInnerT_spec (fuel0 := fuel0) hg hp (v := v) fuel0 f P m k hI hsym hve with
        ⟨f1, P1, m1, c, h1, h2, h7, h3, h4, h5, h6⟩ | ⟨f1, P1, w, c, hE, h1, h7, h2⟩ | h1
      · rw [h1, Out.ok_bind]
        simp only
        have c1 : m1.markNode v = .ok { m1 with nodes := v :: m1.nodes } := by
          have : m1.nodes.contains v = false := by
            unfold Marker.hasNode at hv1; rw [h4]; exact hv1
          unfold Marker.markNode; rw [this]; simp
        rw [c1, Out.ok_bind]
        have hI2 : SInv g p f1 P1 { m1 with nodes := v :: m1.nodes } := by
          refine ⟨h2.forest, h2.pairs, h2.edges, ?_⟩
          intro u hu z haz
          show m1.hasEdge u z = true
          unfold Marker.hasNode at hu
          simp only [List.contains_cons, Bool.or_eq_true, beq_iff_eq] at hu
          rcases hu with rfl | hu
          · exact h5 z haz
          · exact h2.done u hu z haz
        have hrest : Marker.rest { m1 with nodes := v :: m1.nodes } g = m1.rest g := rfl
        rcases ih f1 P1 { m1 with nodes := v :: m1.nodes } (k + c + 1) hI2 h3 (by rw [h4]; exact hD)
          (by rw [h4]; intro x hx; rw [h7 x (hne x hx).2]; exact (hne x hx).1) with
          ⟨d, D, f2, P2, k1, k3, k4, k5, k2⟩ | ⟨f2, P2, v2, w2, d, D, kE, k1, k4, k5, k2⟩ | k1
        · rw [hrest, List.length_cons, h4] at k2
          refine .inl ⟨c + 1 + d, D, f2, P2, ?_, k3, k4, k5, by omega⟩
          rw [k1]; congr 2; omega
        · rw [hrest, List.length_cons, h4] at k2
          refine .inr (.inl ⟨f2, P2, v2, w2, c + 1 + d, D, kE, ?_, k4, k5, by omega⟩)
          rw [k1]; congr 2; omega
        · exact .inr (.inr k1)
      · right; left
        refine ⟨f1, P1, v, w, c + 1, v :: m.nodes, hE, ?_, hD, ?_, ?_⟩
        · rw [h1, Out.ok_bind]; rfl
        · intro x hx; rw [h7 x (hne x hx).2]; exact (hne x hx).1
        · rw [List.length_cons]; omega
      · rw [h1]; exact .inr (.inr rfl)

/-- `augmenting_path` with the count, up to the edge between even nodes it finds. -/
theorem augmentingPathLooks_search (hg : g.Lawful) (hp : p.Matches g) {ords : Nat → HashOrder} (ho : ∀ i, (ords i).Valid) (n : Nat) :
    (∃ k, augmentingPathLooks pf ords (n + 1) g p = .ok (none, [k]) ∧ 2 * k + p.order ≤ 2 * ((p.rest g).ncard + g.nodes.length)) ∨
    (∃ f1 P1 v w k, EvenEdge g p f1 P1 v w ∧ 2 * k + p.order ≤ 2 * ((p.rest g).ncard + g.nodes.length) ∧
      augmentingPathLooks pf ords (n + 1) g p =
        (evenPathLooks pf (ords n) n (augmentingPathLooks pf ords n) v (P1 w) g f1 p >>= fun s => .ok (s.1, k :: s.2))) ∨
    augmentingPathLooks pf ords (n + 1) g p = .timeout := by
  obtain ⟨m, e1, n1, h1⟩ := Marker.init_ok hp.symmetric (ho n)
  obtain ⟨f, e2, hF⟩ := roots_ok hg p
  have hI : SInv g p f _ m := ⟨hF, fun u w h => (h1 u w).2 h, fun u w h => .inl ((h1 u w).1 h), fun u hu => by
    unfold Marker.hasNode at hu; rw [n1] at hu; simp at hu⟩
  have hsym : ∀ a b, m.hasEdge a b = true → m.hasEdge b a = true :=
    fun a b h => (h1 b a).2 (hp.symmetric.get_get ((h1 a b).1 h))
  have hrest : m.rest g = p.rest g := by
    ext e
    constructor
    · rintro ⟨a, b⟩
      refine ⟨a, fun u w h h' => ?_⟩
      have := b u w h
      rw [(h1 u w).2 h'] at this; cases this
    · rintro ⟨a, b⟩
      refine ⟨a, fun u w h => ?_⟩
      rw [Bool.eq_false_iff]
      exact fun h' => b u w h ((h1 u w).1 h')
  unfold augmentingPathLooks
  rw [e1, Out.ok_bind, e2, Out.ok_bind, apOuterLooks_eq_trace]
  rcases apOuterT_spec (fuel0 := n) hg hp n f _ m 0 hI hsym (by rw [n1]; simp) (by rw [n1]; simp) with
    ⟨c, D, f1, P1, k1, k3, k4, k5, k2⟩ | ⟨f1, P1, v, w, c, D, hE, k1, k4, k5, k2⟩ | k1
  · have := k3.even_le hg hp k4 k5
    rw [k1]; exact .inl ⟨_, rfl, by rw [hrest, n1] at k2; simp only [List.length_nil] at k2; omega⟩
  · have := hE.forest.even_le hg hp k4 k5
    rw [k1]; exact .inr (.inl ⟨f1, P1, v, w, _, hE, by rw [hrest, n1] at k2; simp only [List.length_nil] at k2; omega, rfl⟩)
  · rw [k1]; exact .inr (.inr rfl)

/-- A contracted graph has no more edges outside the matching. -/
theorem Blossom.Con.rest_le {b : Blossom} {base : Nat} {g' : GraphI} {p' : Pairing} (hc : Con g p b base g' p') :
    (p'.rest g').ncard ≤ (p.rest g).ncard := by
  have hsub : p'.rest g' ⊆ Sym2.map (kap b) '' p.rest g := by
    intro e
    induction e with | _ x y =>
    rintro ⟨h1, h2⟩
    rw [hc.lawful'.edge_iff] at h1
    obtain ⟨a, c, hac, rfl, rfl⟩ := (hc.adj' x y h1.1).1 h1.2
    refine ⟨s(a, c), ⟨hc.lawful.edge_iff.2 ⟨fun e => h1.1 (by rw [e]), hac⟩, fun u w e hu => ?_⟩, rfl⟩
    rcases Sym2.eq_iff.1 e with ⟨rfl, rfl⟩ | ⟨rfl, rfl⟩
    · exact h2 _ _ rfl ((hc.get' _ _).2 ⟨h1.1, _, _, hu, rfl, rfl⟩)
    · exact h2 _ _ Sym2.eq_swap ((hc.get' _ _).2 ⟨fun e => h1.1 e.symm, _, _, hu, rfl, rfl⟩)
  exact (Set.ncard_le_ncard hsub ((p.rest_finite hc.lawful).image _)).trans (Set.ncard_image_le (p.rest_finite hc.lawful))

/-- `process_blossom` hands on the counts of the recursive call. -/
theorem processBlossomLooks_ok (hg : g.Lawful) (he : g.edges.Nodup) (hp : p.Matches g) (ho : ord.Valid) {left right B s : List Nat}
    {base : Nat} (hB : Blossom.newLoop right [] left = .ok B) (hF : Found g p B base s) {r : Option (List Nat)} {ks : List Nat}
    (h : processBlossomLooks pf ord fuel0 recL left right g p = .ok (r, ks)) :
    ∃ b g' p' r', b.path = B ∧ Con g p b base g' p' ∧ recL g' p' = .ok (r', ks) := by
  unfold processBlossomLooks at h
  rw [Out.bind_eq_ok] at h
  obtain ⟨mx, -, h⟩ := h
  rw [Out.bind_eq_ok] at h
  obtain ⟨id, -, h⟩ := h
  rw [Out.bind_eq_ok] at h
  obtain ⟨b, hb, h⟩ := h
  rw [Out.bind_eq_ok] at h
  obtain ⟨cg, hcg, h⟩ := h
  rw [Out.bind_eq_ok] at h
  obtain ⟨⟨r', ks'⟩, hr, h⟩ := h
  unfold Blossom.new at hb
  rw [hB, Out.ok_bind] at hb
  injection hb with hb
  subst hb
  have hfree : FreeId g ⟨id, B⟩ := by
    intro v hv hvb e
    rw [contractGraph_err (b := ⟨id, B⟩) hg hv hvb e] at hcg
    cases hcg
  obtain ⟨r0, e0, hc⟩ := contract_ok (b := ⟨id, B⟩) (base := base) ho hg he hp hfree hF.flower
  rw [e0, Out.expect_ok] at hcg
  injection hcg with hcg
  subst hcg
  refine ⟨_, _, _, r', rfl, hc, ?_⟩
  rw [hr]
  cases r' with
  | none => simp only at h; injection h with h; injection h with h1 h2; rw [h2]
  | some path =>
    simp only at h
    rw [Out.bind_eq_ok] at h
    obtain ⟨l, -, h⟩ := h
    injection h with h; injection h with h1 h2; rw [h2]

/-- The counts of a search and the searches nested in it. -/
theorem augmentingPathLooks_spec {ords : Nat → HashOrder} (ho : ∀ i, (ords i).Valid) (n : Nat) :
    ∀ {g : GraphI} {p : Pairing} {r : Option (List Nat)} {ks : List Nat}, g.Lawful → g.edges.Nodup → p.Matches g →
    augmentingPathLooks pf ords n g p = .ok (r, ks) →
    ks.length ≤ g.depth + 1 ∧ ∀ k ∈ ks, 2 * k + p.order ≤ 2 * ((p.rest g).ncard + g.nodes.length) := by
  induction n with
  | zero => intro g p r ks _ _ _ h; cases h
  | succ n ih =>
    intro g p r ks hg he hp h
    rcases augmentingPathLooks_search (pf := pf) hg hp ho n with ⟨k, h1, h2⟩ | ⟨f, P, v, w, k, hE, h1, h2⟩ | h1
    · rw [h1] at h; injection h with h; injection h with _ h; subst h
      exact ⟨by simp, by simpa using h2⟩
    · rw [h2, Out.bind_eq_ok] at h
      obtain ⟨⟨s, ks'⟩, h, h3⟩ := h
      injection h3 with h3; injection h3 with _ h3; subst h3
      have hF := hE.forest
      have hv := hE.even_v
      have hw := hE.even_w
      have hv0 : P v ≠ [] := by intro e; rw [e] at hv; simp at hv
      unfold evenPathLooks at h
      rw [hF.path] at h
      by_cases hn : n < (P v).length
      · rw [if_pos hn] at h; cases h
      rw [if_neg hn, if_neg hv0, Out.ok_bind] at h
      simp only at h
      by_cases hl : (P v).getLast? = (P w).getLast?
      · have hl' : ((P v).getLast? == (P w).getLast?) = true := by simpa using hl
        rw [if_pos hl'] at h
        obtain ⟨B, base, s, hB, hFd⟩ := hF.found hg hp hv hw hE.adj hl
        obtain ⟨b, g', p', r', hb, hc, hr⟩ := processBlossomLooks_ok hg he hp (ho n) hB hFd h
        subst hb
        obtain ⟨a1, a2⟩ := ih hc.lawful' hc.edges' hc.matches' hr
        have hd := hFd.depth_lt hc
        refine ⟨by simp; omega, ?_⟩
        have b1 := hc.rest_le
        have b2 := hc.length_nodes
        have b3 := hc.order_eq
        have b4 := hFd.odd
        intro x hx
        rcases List.mem_cons.1 hx with rfl | hx
        · exact h1
        · have := a2 x hx; omega
      · have hl' : ((P v).getLast? == (P w).getLast?) = false := by simpa using hl
        rw [hl'] at h
        simp only [Bool.false_eq_true, if_false] at h
        injection h with h; injection h with _ h; subst h
        exact ⟨by simp, by simpa using h1⟩
    · rw [h1] at h; cases h

/-- The pairs of a matching are edges. -/
theorem Pairing.rest_add (hg : g.Lawful) (hp : p.Matches g) (ho : ord.Valid) :
    (p.rest g).ncard + (p.edges ord).length ≤ g.size := by
  have hs := hp.symmetric
  set S : Set (Sym2 Nat) := (((p.edges ord).map (fun e => s(e.1, e.2))).toFinset : Set (Sym2 Nat)) with hS
  have hlt : ∀ a b, (a, b) ∈ p.edges ord → a < b ∧ p.get a = some b := fun a b h => by
    have := (mem_edges ho hs).1 h; tauto
  have hcard : S.ncard = (p.edges ord).length := by
    rw [hS, Set.ncard_coe_finset, List.toFinset_card_of_nodup]
    · simp
    · refine (edges_nodup ho hs).map_on ?_
      rintro ⟨a, b⟩ h ⟨c, d⟩ h' e
      have h1 := hlt _ _ h
      have h2 := hlt _ _ h'
      rcases Sym2.eq_iff.1 e with ⟨h3, h4⟩ | ⟨h3, h4⟩
      · simp only at h3 h4; rw [h3, h4]
      · simp only at h3 h4; omega
  have hsub : p.rest g ∪ S ⊆ g.simple.edgeSet := by
    rintro e (h | h)
    · exact h.1
    · rw [hS] at h
      simp only [List.coe_toFinset, List.mem_map, Set.mem_setOf_eq] at h
      obtain ⟨⟨a, b⟩, h, rfl⟩ := h
      obtain ⟨h1, h2⟩ := hlt _ _ h
      exact hg.edge_iff.2 ⟨by simp only; omega, hp.adj' h2⟩
  have hdis : Disjoint (p.rest g) S := by
    rw [Set.disjoint_left]
    intro e h h'
    rw [hS] at h'
    simp only [List.coe_toFinset, List.mem_map, Set.mem_setOf_eq] at h'
    obtain ⟨⟨a, b⟩, h', rfl⟩ := h'
    exact h.2 a b rfl (hlt _ _ h').2
  rw [← hcard, ← Set.ncard_union_eq hdis (p.rest_finite hg) (Finset.finite_toSet _)]
  exact (Set.ncard_le_ncard hsub hg.edgeSet_finite).trans hg.ncard_edgeSet

/-- Without odd cycles there is one count. -/
theorem augmentingPathLooks_bip {ords : Nat → HashOrder} (ho : ∀ i, (ords i).Valid) (n : Nat)
    (hg : g.Lawful) (hp : p.Matches g) {col : Nat → Bool} (hcol : ∀ u v, g.Adj u v → col u ≠ col v)
    {r : Option (List Nat)} {ks : List Nat} (h : augmentingPathLooks pf ords n g p = .ok (r, ks)) : ks.length = 1 := by
  cases n with
  | zero => cases h
  | succ n =>
    rcases augmentingPathLooks_search (pf := pf) hg hp ho n with ⟨k, h1, h2⟩ | ⟨f, P, v, w, k, hE, h1, h2⟩ | h1
    · rw [h1] at h; injection h with h; injection h with _ h; subst h; rfl
    · rw [h2, Out.bind_eq_ok] at h
      obtain ⟨⟨s, ks'⟩, h, h3⟩ := h
      injection h3 with h3; injection h3 with _ h3; subst h3
      have hF := hE.forest
      have hv := hE.even_v
      have hv0 : P v ≠ [] := by intro e; rw [e] at hv; simp at hv
      unfold evenPathLooks at h
      rw [hF.path] at h
      by_cases hn : n < (P v).length
      · rw [if_pos hn] at h; cases h
      rw [if_neg hn, if_neg hv0, Out.ok_bind] at h
      simp only at h
      by_cases hl : (P v).getLast? = (P w).getLast?
      · obtain ⟨B, base, s, hB, hFd⟩ := hF.found hg hp hv hE.even_w hE.adj hl
        exact (cyclic_odd hFd.cyclic hFd.odd hcol).elim
      · have hl' : ((P v).getLast? == (P w).getLast?) = false := by simpa using hl
        rw [hl'] at h
        simp only [Bool.false_eq_true, if_false] at h
        injection h with h; injection h with _ h; subst h; rfl
    · rw [h1] at h; cases h

/-- The lists of counts are those of the searches of the tally, each of a matching of the graph. -/
theorem maximumMatchingLooks_spec (hg : g.Lawful) (he : g.edges.Nodup) (n : Nat) :
    ∀ {p : Pairing} {ords : List Bool → Nat → HashOrder} {q : Pairing} {kss : List (List Nat)}, p.Matches g →
    (∀ l i, (ords l i).Valid) → maximumMatchingLooks pf n ords g p = .ok (q, kss) →
    q.Matches g ∧ (∃ t, maximumMatchingTally pf n ords g p = .ok (q, t) ∧ t.searches = kss.length) ∧
    ∀ ks ∈ kss, ∃ (p' : Pairing) (ords' : Nat → HashOrder) (m : Nat) (r : Option (List Nat)), p'.Matches g ∧ (∀ i, (ords' i).Valid) ∧
      augmentingPathLooks pf ords' m g p' = .ok (r, ks) := by
  induction n with
  | zero => intro p ords q kss _ _ h; cases h
  | succ n ih =>
    intro p ords q kss hp ho h
    rw [maximumMatchingLooks, Out.bind_eq_ok] at h
    obtain ⟨⟨r, ks⟩, h1, h2⟩ := h
    have h1' : augmentingPath pf (ords []) n g p = .ok r := by rw [augmentingPathLooks_eq, h1]; rfl
    unfold maximumMatchingTally
    rw [h1', Out.ok_bind]
    cases r with
    | none =>
      simp only at h2
      injection h2 with h2; injection h2 with h2 h3; subst h2 h3
      exact ⟨hp, ⟨_, rfl, rfl⟩, fun x hx => by
        rw [List.mem_singleton] at hx; subst hx; exact ⟨_, _, _, _, hp, ho [], h1⟩⟩
    | some path =>
      simp only at h2 ⊢
      rw [Out.bind_eq_ok] at h2
      obtain ⟨p1, h2, h3⟩ := h2
      rw [Out.bind_eq_ok] at h3
      obtain ⟨⟨p2, k2⟩, h3, h4⟩ := h3
      simp only at h4
      rw [Out.bind_eq_ok] at h4
      obtain ⟨⟨p3, k3⟩, h4, h5⟩ := h4
      injection h5 with h5; injection h5 with h5 h6; subst h5 h6
      have hm := (Visits.step p p1 path .start ⟨_, _, ho [], h1'⟩ h2).matches_ hg he hp
      obtain ⟨a1, ⟨t2, a2, a3⟩, a4⟩ := ih hm (fun l i => ho (false :: l) i) h3
      obtain ⟨b1, ⟨t3, b2, b3⟩, b4⟩ := ih a1 (fun l i => ho (true :: l) i) h4
      refine ⟨b1, ⟨⟨1 + t2.searches + t3.searches, 1 + t2.augmentations + t3.augmentations, max (1 + t2.depth) t3.depth⟩, ?_, ?_⟩, ?_⟩
      · rw [h2, Out.ok_bind, a2, Out.ok_bind]
        simp only
        rw [b2, Out.ok_bind]
      · simp only [List.length_cons, List.length_append]; omega
      · intro x hx
        rcases List.mem_cons.1 hx with rfl | hx
        · exact ⟨_, _, _, _, hp, ho [], h1⟩
        rcases List.mem_append.1 hx with hx | hx
        · exact a4 x hx
        · exact b4 x hx

end
end Gamma
