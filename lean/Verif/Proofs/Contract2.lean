import Verif.Proofs.Contract
import Mathlib.Data.List.Count
/-
The contracted graph and pairing in terms of the original ones.
-/
namespace Gamma
open Pairing

/-- `B` is a set of nodes of `g` that `p` pairs among themselves, except one, the base, which `p` does not pair
inside `B`. -/
structure Flower (g : GraphI) (p : Pairing) (B : List Nat) (base : Nat) : Prop where
  nodup : B.Nodup
  sub : ∀ x ∈ B, x ∈ g.nodes
  base_mem : base ∈ B
  base_out : ∀ y, p.get base = some y → y ∉ B
  inner : ∀ x ∈ B, x ≠ base → ∃ y ∈ B, p.get x = some y

theorem Flower.base_of_out {g : GraphI} {p : Pairing} {B : List Nat} {base : Nat} (h : Flower g p B base) {x : Nat}
    (hx : x ∈ B) (ho : ∀ y, p.get x = some y → y ∉ B) : x = base := by
  by_contra hne
  obtain ⟨y, hy, e⟩ := h.inner x hx hne
  exact ho y e hy

namespace Blossom
variable {g : GraphI} {b : Blossom} {r : DefaultGraph} {p : Pairing} {base : Nat}

theorem Contracted.mem_nodes (h : Contracted g b r) {x : Nat} :
    x ∈ r.nodes ↔ x = b.id ∨ (x ∈ g.nodes ∧ x ∉ b.path) := by
  rw [h.nodes]; simp

theorem Contracted.kap_mem (h : Contracted g b r) {x : Nat} (hx : x ∈ g.nodes) : kap b x ∈ r.nodes := by
  rw [h.mem_nodes]
  by_cases hb : x ∈ b.path
  · exact .inl (kap_in hb)
  · rw [kap_out hb]; exact .inr ⟨hx, hb⟩

/-- The id is not the id of a node outside the blossom. -/
def FreeId (g : GraphI) (b : Blossom) : Prop := ∀ v ∈ g.nodes, v ∉ b.path → v ≠ b.id

theorem FreeId.kap_eq_id (h : FreeId g b) {x : Nat} (hx : x ∈ g.nodes) : kap b x = b.id ↔ x ∈ b.path := by
  constructor
  · intro e
    by_contra hb
    rw [kap_out hb] at e
    exact h x hx hb e
  · exact kap_in

theorem FreeId.kap_eq (h : FreeId g b) {x y : Nat} (hx : x ∈ g.nodes) (hy : y ∈ g.nodes) :
    kap b x = kap b y ↔ x = y ∨ (x ∈ b.path ∧ y ∈ b.path) := by
  by_cases h1 : x ∈ b.path <;> by_cases h2 : y ∈ b.path
  · simp [kap_in, h1, h2]
  · rw [kap_in h1, kap_out h2]
    constructor
    · intro e; exact absurd e.symm (h y hy h2)
    · rintro (rfl | h3)
      · exact absurd h1 h2
      · exact absurd h3.2 h2
  · rw [kap_in h2, kap_out h1]
    constructor
    · intro e; exact absurd e (h x hx h1)
    · rintro (rfl | h3)
      · exact absurd h2 h1
      · exact absurd h3.1 h1
  · rw [kap_out h1, kap_out h2]; simp [h1]

theorem Contracted.adj_iff (hg : g.Lawful) (hid : FreeId g b) (h : Contracted g b r) {x y : Nat} (hne : x ≠ y) :
    r.toI.Adj x y ↔ ∃ a c, g.Adj a c ∧ kap b a = x ∧ kap b c = y := by
  rw [h.adj]
  constructor
  · rintro ⟨⟨a, c⟩, hm, -, ⟨e1, e2⟩ | ⟨e1, e2⟩⟩
    · exact ⟨a, c, hg.edges_adj _ _ hm, e1, e2⟩
    · exact ⟨c, a, hg.adj_symm _ _ (hg.edges_adj _ _ hm), e2, e1⟩
  · rintro ⟨a, c, hac, rfl, rfl⟩
    have hac' : a ≠ c := fun e => hne (by rw [e])
    have hnb : ¬ (a ∈ b.path ∧ c ∈ b.path) := fun ⟨h1, h2⟩ => hne (by rw [kap_in h1, kap_in h2])
    rcases hg.adj_edges a c hac' hac with hm | hm
    · exact ⟨(a, c), hm, hnb, .inl ⟨rfl, rfl⟩⟩
    · exact ⟨(c, a), hm, fun h => hnb ⟨h.2, h.1⟩, .inr ⟨rfl, rfl⟩⟩

theorem Contracted.loop (hg : g.Lawful) (hid : FreeId g b) (h : Contracted g b r) {x : Nat}
    (ha : r.toI.Adj x x) : x ≠ b.id ∧ x ∉ b.path ∧ g.Adj x x := by
  rw [h.adj] at ha
  obtain ⟨⟨a, c⟩, hm, hnb, hor⟩ := ha
  have hac := hg.edges_adj _ _ hm
  have e : kap b a = x ∧ kap b c = x := by rcases hor with h | h <;> exact ⟨by first | exact h.1 | exact h.2, by first | exact h.1 | exact h.2⟩
  rcases (hid.kap_eq (hg.adj_src hac) (hg.adj_mem _ _ hac)).1 (e.1.trans e.2.symm) with h | h
  · subst h
    have hb : a ∉ b.path := fun h => hnb ⟨h, h⟩
    rw [kap_out hb] at e
    obtain ⟨rfl, -⟩ := e
    exact ⟨hid a (hg.adj_src hac) hb, hb, hac⟩
  · exact absurd h hnb

theorem _root_.Gamma.Pairing.Matches.adj' {p : Pairing} {g : GraphI} (h : p.Matches g) {x y : Nat} (e : p.get x = some y) : g.Adj x y :=
  h.adj x y (mate_eq_ok.2 e)

theorem _root_.Gamma.Pairing.Matches.mem_left {p : Pairing} {g : GraphI} (hg : g.Lawful) (h : p.Matches g) {x y : Nat}
    (e : p.get x = some y) : x ∈ g.nodes := hg.adj_src (h.adj' e)

theorem _root_.Gamma.Pairing.Matches.mem_right {p : Pairing} {g : GraphI} (hg : g.Lawful) (h : p.Matches g) {x y : Nat}
    (e : p.get x = some y) : y ∈ g.nodes := hg.adj_mem _ _ (h.adj' e)

theorem contractPairing_gen {ord : HashOrder} (ho : ord.Valid) (hs : p.Symmetric)
    (hid : ∀ x y, p.get x = some y → x ∉ b.path → x ≠ b.id)
    (hout : ∀ x ∈ b.path, (∀ y, p.get x = some y → y ∉ b.path) → x = base) :
    (b.contractPairing ord p).Symmetric ∧ ∀ x y, (b.contractPairing ord p).get x = some y ↔
      x ≠ y ∧ ∃ a c, p.get a = some c ∧ kap b a = x ∧ kap b c = y := by
  have kap_eq : ∀ {x y x' y'}, p.get x = some x' → p.get y = some y' →
      (kap b x = kap b y ↔ x = y ∨ (x ∈ b.path ∧ y ∈ b.path)) := by
    intro x y x' y' hx hy
    by_cases h1 : x ∈ b.path <;> by_cases h2 : y ∈ b.path
    · simp [kap_in, h1, h2]
    · rw [kap_in h1, kap_out h2]
      constructor
      · intro e; exact absurd e.symm (hid y _ hy h2)
      · rintro (rfl | h3)
        · exact absurd h1 h2
        · exact absurd h3.2 h2
    · rw [kap_in h2, kap_out h1]
      constructor
      · intro e; exact absurd e (hid x _ hx h1)
      · rintro (rfl | h3)
        · exact absurd h2 h1
        · exact absurd h3.1 h1
    · rw [kap_out h1, kap_out h2]; simp [h1]
  -- the fold
  have key : ∀ (post pre : List (Nat × Nat)) (q : Pairing), p.edges ord = pre ++ post → q.Symmetric →
      (∀ x y, q.get x = some y ↔ b.CAdj pre x y) →
      (post.foldl b.contractPair q).Symmetric ∧
        ∀ x y, (post.foldl b.contractPair q).get x = some y ↔ b.CAdj (p.edges ord) x y := by
    intro post
    induction post with
    | nil => intro pre q hL hq hqa; simp at hL; rw [hL]; exact ⟨hq, hqa⟩
    | cons e post ih =>
      intro pre q hL hq hqa
      obtain ⟨a, c⟩ := e
      have hmem : (a, c) ∈ p.edges ord := by rw [hL]; simp
      have hac := (mem_edges ho hs).1 hmem
      have hdis := edges_disjoint ho hs
      rw [hL, List.pairwise_append] at hdis
      have hdis' : ∀ z w, (z, w) ∈ pre → z ≠ a ∧ z ≠ c ∧ w ≠ a ∧ w ≠ c := fun z w hz =>
        hdis.2.2 (z, w) hz (a, c) (by simp)
      rw [List.foldl_cons]
      by_cases hboth : a ∈ b.path ∧ c ∈ b.path
      · have : b.contractPair q (a, c) = q := by simp [contractPair, hboth.1, hboth.2]
        rw [this]
        refine ih (pre ++ [(a, c)]) q (by simp [hL]) hq (fun x y => ?_)
        rw [hqa, CAdj_snoc]; simp [hboth]
      · have hkne : kap b a ≠ kap b c := by
          rw [Ne, kap_eq hac.2 (hs.get_get hac.2), not_or]
          exact ⟨by omega, hboth⟩
        have hcp : b.contractPair q (a, c) = q.pair (kap b a) (kap b c) := by
          unfold contractPair
          by_cases h1 : a ∈ b.path
          · have h2 : c ∉ b.path := fun h => hboth ⟨h1, h⟩
            simp [h1, h2, kap_in h1, kap_out h2]
          · by_cases h2 : c ∈ b.path
            · simp [h1, h2, kap_out h1, kap_in h2]
            · simp [h1, h2, kap_out h1, kap_out h2]
        -- nothing earlier touches either end
        have fresh : ∀ u v, (u = a ∧ v = c) ∨ (u = c ∧ v = a) → q.get (kap b u) = none := by
          intro u v huv
          have huv' : p.get u = some v := by
            rcases huv with ⟨rfl, rfl⟩ | ⟨rfl, rfl⟩
            · exact hac.2
            · exact hs.get_get hac.2
          have hnuv : ¬ (u ∈ b.path ∧ v ∈ b.path) := by
            rcases huv with ⟨rfl, rfl⟩ | ⟨rfl, rfl⟩
            · exact hboth
            · exact fun h => hboth ⟨h.2, h.1⟩
          cases hq' : q.get (kap b u) with
          | none => rfl
          | some y =>
            exfalso
            obtain ⟨⟨z, w⟩, hzw, hnb, hor⟩ := (hqa _ _).1 hq'
            have hzwm : (z, w) ∈ p.edges ord := by rw [hL]; simp [hzw]
            have hzwp := (mem_edges ho hs).1 hzwm
            have hd := hdis' z w hzw
            -- the end of the earlier edge that is identified with u
            have : ∃ s t, p.get s = some t ∧ ¬ (s ∈ b.path ∧ t ∈ b.path) ∧ kap b s = kap b u ∧ s ≠ u := by
              rcases hor with h | h
              · refine ⟨z, w, hzwp.2, hnb, h.1, ?_⟩
                rcases huv with ⟨rfl, rfl⟩ | ⟨rfl, rfl⟩
                · exact hd.1
                · exact hd.2.1
              · refine ⟨w, z, hs.get_get hzwp.2, fun h => hnb ⟨h.2, h.1⟩, h.2, ?_⟩
                rcases huv with ⟨rfl, rfl⟩ | ⟨rfl, rfl⟩
                · exact hd.2.2.1
                · exact hd.2.2.2
            obtain ⟨s, t, hst, hnst, hk, hne⟩ := this
            rcases (kap_eq hst huv').1 hk with h | ⟨h1, h2⟩
            · exact hne h
            · have e1 : s = base := hout s h1 (fun y hy => by
                rw [hst] at hy; cases hy; exact fun h => hnst ⟨h1, h⟩)
              have e2 : u = base := hout u h2 (fun y hy => by
                rw [huv'] at hy; cases hy; exact fun h => hnuv ⟨h2, h⟩)
              exact hne (e1.trans e2.symm)
        rw [hcp]
        refine ih (pre ++ [(a, c)]) _ (by simp [hL]) (hq.pair hkne) (fun x y => ?_)
        have f1 := fresh a c (.inl ⟨rfl, rfl⟩)
        have f2 := fresh c a (.inr ⟨rfl, rfl⟩)
        rw [get_pair_fresh hq hkne f1 f2, CAdj_snoc]
        simp only [hboth, not_false_eq_true, true_and]
        rw [← hqa]
        by_cases c1 : x = kap b a
        · subst c1
          simp only [if_true, f1]
          constructor
          · intro h; cases h; exact .inr (.inl ⟨trivial, rfl⟩)
          · rintro (h | ⟨-, h⟩ | ⟨-, h⟩)
            · simp at h
            · rw [h]
            · exact absurd h.symm hkne
        · by_cases c2 : x = kap b c
          · subst c2
            simp only [if_true, f2, c1, if_false]
            constructor
            · intro h; cases h; exact .inr (.inr ⟨rfl, trivial⟩)
            · rintro (h | ⟨h, -⟩ | ⟨h, -⟩)
              · simp at h
              · exact absurd h hkne
              · rw [h]
          · simp only [c1, c2, if_false]
            constructor
            · exact .inl
            · rintro (h | ⟨h, -⟩ | ⟨-, h⟩)
              · exact h
              · exact absurd h.symm c1
              · exact absurd h.symm c2
  obtain ⟨k1, k2⟩ := key (p.edges ord) [] Pairing.new rfl symmetric_new (by
    intro x y; simp [CAdj, Pairing.new, Pairing.get])
  refine ⟨k1, fun x y => ?_⟩
  show (List.foldl b.contractPair Pairing.new (p.edges ord)).get x = some y ↔ _
  rw [k2]
  constructor
  · rintro ⟨⟨a, c⟩, hm, hnb, hor⟩
    have hac := (mem_edges ho hs).1 hm
    have hkne : kap b a ≠ kap b c := by
      rw [Ne, kap_eq hac.2 (hs.get_get hac.2), not_or]
      exact ⟨by omega, hnb⟩
    rcases hor with ⟨rfl, rfl⟩ | ⟨rfl, rfl⟩
    · exact ⟨hkne, a, c, hac.2, rfl, rfl⟩
    · exact ⟨hkne.symm, c, a, hs.get_get hac.2, rfl, rfl⟩
  · rintro ⟨hne, a, c, hac, rfl, rfl⟩
    have hnb : ¬ (a ∈ b.path ∧ c ∈ b.path) := fun ⟨h1, h2⟩ => hne (by rw [kap_in h1, kap_in h2])
    rcases Nat.lt_or_gt_of_ne (hs.ne hac) with hlt | hlt
    · exact ⟨(a, c), (mem_edges ho hs).2 ⟨hlt, hac⟩, hnb, .inl ⟨rfl, rfl⟩⟩
    · exact ⟨(c, a), (mem_edges ho hs).2 ⟨hlt, hs.get_get hac⟩, fun h => hnb ⟨h.2, h.1⟩, .inr ⟨rfl, rfl⟩⟩

theorem contractPairing_ok {ord : HashOrder} (ho : ord.Valid) (hg : g.Lawful) (hp : p.Matches g)
    (hid : FreeId g b) (hf : Flower g p b.path base) :
    (b.contractPairing ord p).Symmetric ∧ ∀ x y, (b.contractPairing ord p).get x = some y ↔
      x ≠ y ∧ ∃ a c, p.get a = some c ∧ kap b a = x ∧ kap b c = y :=
  contractPairing_gen ho hp.symmetric (fun x _ h hx => hid x (hp.mem_left hg h) hx) (fun _ hx h => hf.base_of_out hx h)

/-- The whole situation after a contraction. -/
structure Con (g : GraphI) (p : Pairing) (b : Blossom) (base : Nat) (g' : GraphI) (p' : Pairing) : Prop where
  lawful : g.Lawful
  matches_ : p.Matches g
  free : FreeId g b
  flower : Flower g p b.path base
  lawful' : g'.Lawful
  edges' : g'.edges.Nodup
  nodes' : g'.nodes = b.id :: g.nodes.filter (fun x => !b.path.contains x)
  adj' : ∀ x y, x ≠ y → (g'.Adj x y ↔ ∃ a c, g.Adj a c ∧ kap b a = x ∧ kap b c = y)
  loop' : ∀ x, g'.Adj x x → x ≠ b.id ∧ x ∉ b.path ∧ g.Adj x x
  matches' : p'.Matches g'
  get' : ∀ x y, p'.get x = some y ↔ x ≠ y ∧ ∃ a c, p.get a = some c ∧ kap b a = x ∧ kap b c = y

theorem contract_ok {ord : HashOrder} (ho : ord.Valid) (hg : g.Lawful) (he : g.edges.Nodup) (hp : p.Matches g)
    (hid : FreeId g b) (hf : Flower g p b.path base) :
    ∃ r, b.contractGraph g = .ok r ∧ Con g p b base r.toI (b.contractPairing ord p) := by
  obtain ⟨r, e, hr⟩ := contractGraph_ok hg he hid
  obtain ⟨h1, h2⟩ := contractPairing_ok ho hg hp hid hf
  refine ⟨r, e, hg, hp, hid, hf, hr.reach.lawful, hr.reach.loopExact.nodup, hr.nodes,
    fun x y hne => hr.adj_iff hg hid hne, fun x h => hr.loop hg hid h, ?_, h2⟩
  refine matches_of h1 (fun x y hxy => ?_)
  obtain ⟨hne, a, c, hac, e1, e2⟩ := (h2 x y).1 hxy
  exact (hr.adj_iff hg hid hne).2 ⟨a, c, hp.adj' hac, e1, e2⟩

namespace Con
variable {g' : GraphI} {p' : Pairing}

theorem mem_nodes (h : Con g p b base g' p') {x : Nat} :
    x ∈ g'.nodes ↔ x = b.id ∨ (x ∈ g.nodes ∧ x ∉ b.path) := by
  rw [h.nodes']; simp

theorem kap_mem (h : Con g p b base g' p') {x : Nat} (hx : x ∈ g.nodes) : kap b x ∈ g'.nodes := by
  rw [h.mem_nodes]
  by_cases hb : x ∈ b.path
  · exact .inl (kap_in hb)
  · rw [kap_out hb]; exact .inr ⟨hx, hb⟩

/-- The contracted mate of an unpaired node. -/
theorem get_none (h : Con g p b base g' p') {x : Nat} (hx : x ∈ g.nodes) (hxb : x ∈ b.path → x = base) :
    p'.get (kap b x) = none ↔ p.get x = none := by
  have hs := h.matches_.symmetric
  constructor
  · intro hn
    cases e : p.get x with
    | none => rfl
    | some y =>
      exfalso
      have hne : kap b x ≠ kap b y := by
        rw [Ne, h.free.kap_eq hx (h.matches_.mem_right h.lawful e), not_or]
        refine ⟨hs.ne e, fun ⟨h1, h2⟩ => ?_⟩
        have := hxb h1; subst this
        exact h.flower.base_out y e h2
      have := (h.get' (kap b x) (kap b y)).2 ⟨hne, x, y, e, rfl, rfl⟩
      rw [hn] at this; simp at this
  · intro hn
    cases e : p'.get (kap b x) with
    | none => rfl
    | some y =>
      exfalso
      obtain ⟨hne, a, c, hac, e1, e2⟩ := (h.get' _ _).1 e
      rcases (h.free.kap_eq (h.matches_.mem_left h.lawful hac) hx).1 e1 with rfl | ⟨h1, h2⟩
      · rw [hn] at hac; simp at hac
      · have : a = base := h.flower.base_of_out h1 (fun z hz hzb => by
          rw [hac] at hz; cases hz
          exact hne (by rw [← e1, ← e2, kap_in h1, kap_in hzb]))
        rw [this, ← hxb h2, hn] at hac; simp at hac

end Con
end Blossom
end Gamma
