import Verif.Proofs.Search
/-
What `augmenting_path` returns.
-/
namespace Gamma
open Pairing

/-! ### Augmenting keeps a matching -/

theorem Pairing.Matches.isMatching {g : GraphI} {p : Pairing} (hp : p.Matches g) {ord : HashOrder} (ho : ord.Valid) :
    IsMatching g (p.edges ord) := by
  refine ⟨?_, edges_disjoint ho hp.symmetric⟩
  rintro ⟨a, b⟩ hm
  obtain ⟨h1, h2⟩ := (mem_edges ho hp.symmetric).1 hm
  exact ⟨Nat.ne_of_lt h1, hp.adj' h2⟩

theorem HashOrder.id_valid : HashOrder.Valid id := fun _ => .rfl

/-- Augmenting along a path of the graph, whatever its relation to the pairing, gives a matching. -/
theorem augment_matches {g : GraphI} {p : Pairing} (hg : g.Lawful) (hp : p.Matches g) {path : List Nat}
    (hn : path.Nodup) (hc : path.IsChain g.Adj) (he : path.length % 2 = 0) :
    ∃ q, p.augment path = .ok q ∧ q.Matches g := by
  obtain ⟨q, e, hs, h1, h2⟩ := augment_spec hp.symmetric path hn he
  refine ⟨q, e, matches_of hs ?_⟩
  intro x y hxy
  have hc' := List.isChain_iff_getElem.1 hc
  by_cases hx : x ∈ path
  · obtain ⟨i, hi, rfl⟩ := List.getElem_of_mem hx
    rcases Nat.mod_two_eq_zero_or_one i with h0 | h0
    · have hi1 : i + 1 < path.length := by omega
      have := h1 (i / 2) path[i] path[i + 1] (by
        rw [show 2 * (i / 2) = i by omega, List.getElem?_eq_getElem hi]) (by
        rw [show 2 * (i / 2) + 1 = i + 1 by omega, List.getElem?_eq_getElem hi1])
      rw [hxy] at this; injection this with this; subst this
      exact hc' i (by omega)
    · obtain ⟨j, rfl⟩ : ∃ j, i = j + 1 := ⟨i - 1, by omega⟩
      have := h1 (j / 2) path[j] path[j + 1] (by
        rw [show 2 * (j / 2) = j by omega, List.getElem?_eq_getElem]) (by
        rw [show 2 * (j / 2) + 1 = j + 1 by omega, List.getElem?_eq_getElem hi])
      have := hs.get_get this
      rw [hxy] at this; injection this with this; subst this
      exact hg.adj_symm _ _ (hc' j (by omega))
  · rw [h2 x hx] at hxy
    cases e' : p.get x with
    | none => rw [e'] at hxy; simp at hxy
    | some z =>
      rw [e'] at hxy
      simp only at hxy
      split at hxy
      · simp at hxy
      · injection hxy with hxy; subst hxy; exact hp.adj' e'

/-! ### Two stems make an augmenting path -/

theorem Stem.length {p : Pairing} {l : List Nat} (h : Stem p l) : l.length % 2 = 1 := by
  induction h with
  | root r _ => rfl
  | cons x y l _ _ ih => simp; omega

theorem Stem.last {p : Pairing} {l : List Nat} (h : Stem p l) : ∀ a, l.getLast? = some a → p.get a = none := by
  induction h with
  | root r hr => intro a ha; simp at ha; subst ha; exact hr
  | cons x y l _ hl ih =>
    intro a ha
    cases l with
    | nil => cases hl
    | cons z l => exact ih a (by simpa using ha)

theorem Stem.pairs {p : Pairing} {l : List Nat} (h : Stem p l) :
    ∀ i a b, l[2 * i]? = some a → l[2 * i + 1]? = some b → p.get a = some b := by
  induction h with
  | root r hr => intro i a b h1 h2; simp at h2
  | cons x y l hxy _ ih =>
    intro i a b h1 h2
    cases i with
    | zero => simp at h1 h2; subst h1 h2; exact hxy
    | succ i =>
      rw [show 2 * (i + 1) = 2 * i + 1 + 1 by omega] at h1
      rw [show 2 * (i + 1) + 1 = 2 * i + 1 + 1 + 1 by omega] at h2
      simp only [List.getElem?_cons_succ] at h1 h2
      exact ih i a b h1 h2

theorem Stem.augmenting {p : Pairing} (hs : p.Symmetric) {l k : List Nat} (hl : Stem p l) (hk : Stem p k)
    (hn : (l.reverse ++ k).Nodup) : p.Augmenting (l.reverse ++ k) := by
  have h1 := hl.length
  have h2 := hk.length
  have hl0 : l ≠ [] := by intro e; subst e; simp at h1
  have hk0 : k ≠ [] := by intro e; subst e; simp at h2
  refine ⟨hn, by simp; omega, ?_, ?_, ?_⟩
  · intro a ha
    rw [List.head?_append, List.head?_reverse] at ha
    rw [hasNode_false]
    refine hl.last a ?_
    rw [List.getLast?_eq_some_getLast hl0] at ha ⊢
    simpa using ha
  · intro a ha
    rw [List.getLast?_append] at ha
    rw [hasNode_false]
    refine hk.last a ?_
    rw [List.getLast?_eq_some_getLast hk0] at ha ⊢
    simpa using ha
  · intro i a b ha hb
    rw [mate_eq_ok]
    rw [List.getElem?_append] at ha hb
    rw [List.length_reverse] at ha hb
    by_cases hc : 2 * i + 2 < l.length
    · rw [if_pos (by omega), List.getElem?_reverse (by omega)] at ha
      rw [if_pos hc, List.getElem?_reverse (by omega)] at hb
      refine hs.get_get (hl.pairs ((l.length - 1 - (2 * i + 2)) / 2) b a ?_ ?_)
      · rw [← hb]; congr 1; omega
      · rw [← ha]; congr 1; omega
    · rw [if_neg (by omega)] at ha
      rw [if_neg hc] at hb
      refine hk.pairs ((2 * i + 1 - l.length) / 2) a b ?_ ?_
      · rw [← ha]; congr 1; omega
      · rw [← hb]; congr 1; omega

/-- The path between two trees of the forest. -/
theorem FInv.augmenting {g : GraphI} {p : Pairing} {f : Forest} {P : Nat → List Nat} (h : FInv g p f P)
    (hg : g.Lawful) (hp : p.Matches g) {v w : Nat} (hv : (P v).length % 2 = 1) (hw : (P w).length % 2 = 1)
    (ha : g.Adj v w) (hlast : (P v).getLast? ≠ (P w).getLast?) :
    p.Augmenting ((P v).reverse ++ P w) ∧ Blossom.IsPath g ((P v).reverse ++ P w) := by
  have hv0 : P v ≠ [] := by intro e; rw [e] at hv; simp at hv
  have hw0 : P w ≠ [] := by intro e; rw [e] at hw; simp at hw
  have hnd : ((P v).reverse ++ P w).Nodup := by
    rw [List.nodup_append]
    refine ⟨List.nodup_reverse.2 (h.nodup v), h.nodup w, ?_⟩
    intro a ha b hb hab
    subst hab
    rw [List.mem_reverse] at ha
    obtain ⟨hx, l, e1⟩ := h.suffix v a ha
    obtain ⟨-, l', e2⟩ := h.suffix w a hb
    apply hlast
    rw [e1, e2, List.getLast?_append, List.getLast?_append, List.getLast?_eq_some_getLast hx]
    simp
  refine ⟨(h.stem v hv).augmenting hp.symmetric (h.stem w hw) hnd, by simp [hv0], hnd, ?_, ?_⟩
  · obtain ⟨lv, ev⟩ := h.head hv0
    obtain ⟨lw, ew⟩ := h.head hw0
    have cv := h.chain v
    have cw := h.chain w
    rw [ev] at cv ⊢
    rw [ew] at cw ⊢
    rw [List.isChain_append]
    refine ⟨?_, cw, ?_⟩
    · rw [List.isChain_reverse]; exact cv.imp (fun a b hab => hg.adj_symm _ _ hab)
    · intro x hx y hy
      simp at hx hy
      subst hx hy
      exact ha
  · intro x hx
    rw [List.mem_append, List.mem_reverse] at hx
    rcases hx with hx | hx
    · exact h.mem_nodes hx
    · exact h.mem_nodes hx

/-- An augmenting path yields a larger matching. -/
theorem larger_of_augmenting {g : GraphI} {p : Pairing} (hg : g.Lawful) (hp : p.Matches g) {path : List Nat}
    (ha : p.Augmenting path) (hpath : Blossom.IsPath g path) :
    ∃ M, IsMatching g M ∧ p.order + 2 = 2 * M.length := by
  obtain ⟨q, e, hq⟩ := augment_matches hg hp hpath.nodup hpath.chain ha.even
  refine ⟨q.edges id, hq.isMatching HashOrder.id_valid, ?_⟩
  rw [← order_eq HashOrder.id_valid hq.symmetric, ha.order hp.symmetric hpath.ne e]

/-! ### The certificate of the contracted graph -/

theorem Stem.contract {g g' : GraphI} {p p' : Pairing} {b : Blossom} {base : Nat} (hc : Blossom.Con g p b base g' p')
    {l : List Nat} (hl : Stem p l) (hm : ∀ x ∈ l, x ∈ g.nodes) (ho : ∀ x ∈ l, x ∉ b.path) : Stem p' l := by
  induction hl with
  | root r hr =>
    have := (hc.get_none (hm r (by simp)) (fun h => absurd h (ho r (by simp)))).2 hr
    rw [kap_out (ho r (by simp))] at this
    exact .root r this
  | cons x y l hxy _ ih =>
    refine .cons x y l ?_ (ih (fun z hz => hm z (by simp [hz])) (fun z hz => ho z (by simp [hz])))
    rw [hc.get']
    exact ⟨hc.matches_.symmetric.ne hxy, x, y, hxy, kap_out (ho x (by simp)), kap_out (ho y (by simp))⟩

theorem Found.stem' {g g' : GraphI} {p p' : Pairing} {b : Blossom} {base : Nat} {s : List Nat}
    (hc : Blossom.Con g p b base g' p') (h : Found g p b.path base s) :
    Stem p' (b.id :: s) ∧ (b.id :: s).Nodup ∧ (b.id :: s).IsChain g'.Adj ∧ ∀ x ∈ b.id :: s, x ∈ g'.nodes := by
  have hne : ∀ x ∈ s, x ≠ b.id := fun x hx => hc.free x (h.stem_mem x hx) (h.stem_out x hx)
  have hbase : base ∈ b.path := h.flower.base_mem
  have hnd := h.stem_nodup
  rw [List.nodup_cons] at hnd
  refine ⟨?_, ?_, ?_, ?_⟩
  · have hst := h.stem
    generalize hl : base :: s = l at hst
    cases hst with
    | root r hr =>
      simp at hl
      obtain ⟨rfl, rfl⟩ := hl
      have := (hc.get_none (h.flower.sub _ hbase) (fun _ => rfl)).2 hr
      rw [kap_in hbase] at this
      exact .root _ this
    | cons x y l hxy hl' =>
      simp at hl
      obtain ⟨rfl, rfl⟩ := hl
      refine .cons _ _ _ ?_ (hl'.contract hc (fun z hz => h.stem_mem z (by simp [hz])) (fun z hz => h.stem_out z (by simp [hz])))
      rw [hc.get']
      refine ⟨(hne y (by simp)).symm, base, y, hxy, kap_in hbase, kap_out (h.stem_out y (by simp))⟩
  · rw [List.nodup_cons]
    exact ⟨fun hx => hne _ hx rfl, hnd.2⟩
  · have hch := h.stem_chain
    have key : ∀ l : List Nat, (∀ x ∈ l, x ∉ b.path) → l.Nodup → l.IsChain g.Adj → l.IsChain g'.Adj := by
      intro l
      induction l with
      | nil => intros; exact .nil
      | cons x l ih =>
        intro ho hn hc1
        cases l with
        | nil => exact .singleton _
        | cons y l =>
          rw [List.isChain_cons_cons] at hc1 ⊢
          rw [List.nodup_cons] at hn
          refine ⟨?_, ih (fun z hz => ho z (by simp [hz])) hn.2 hc1.2⟩
          have hxy : x ≠ y := by rintro rfl; exact hn.1 (by simp)
          exact (hc.adj' x y hxy).2 ⟨x, y, hc1.1, kap_out (ho x (by simp)), kap_out (ho y (by simp))⟩
    cases s with
    | nil => exact .singleton _
    | cons y s =>
      rw [List.isChain_cons_cons] at hch ⊢
      refine ⟨?_, key _ h.stem_out hnd.2 hch.2⟩
      exact (hc.adj' _ y (hne y (by simp)).symm).2 ⟨base, y, hch.1, kap_in hbase, kap_out (h.stem_out y (by simp))⟩
  · intro x hx
    rw [hc.mem_nodes]
    rw [List.mem_cons] at hx
    rcases hx with hx | hx
    · exact .inl hx
    · exact .inr ⟨h.stem_mem x hx, h.stem_out x hx⟩

theorem Found.cert {g g' : GraphI} {p p' : Pairing} {b : Blossom} {base : Nat} {s : List Nat}
    (hc : Blossom.Con g p b base g' p') (h : Found g p b.path base s) {A : Nat → Prop} {c : Nat → Nat}
    (hC : Cert g' p' A c) : ∃ A c, Cert g p A c := by
  obtain ⟨h1, h2, h3, h4⟩ := h.stem' hc
  exact ⟨_, _, hC.lift hc (hC.stem hc.lawful' hc.matches' h1 h2 h3 h4 _ rfl).1⟩

end Gamma
