import Verif.Proofs.RunLemmas
/-
Depth-first traversal: the order of the steps, and which edges are reported.
-/
namespace Gamma
namespace DepthFirst
variable {g : GraphI} {root : Nat} {st : List Step} {d : DepthFirst}

/-- The targets of the entries with source `v`. -/
def tgts (v : Nat) (l : List (Nat × Nat)) : List Nat := (l.filter (fun e => e.1 == v)).map Prod.snd

theorem tgts_append (v : Nat) (l l' : List (Nat × Nat)) : tgts v (l ++ l') = tgts v l ++ tgts v l' := by
  simp [tgts]

theorem tgts_sublist {v : Nat} {l l' : List (Nat × Nat)} (h : l.Sublist l') : (tgts v l).Sublist (tgts v l') :=
  (h.filter _).map _

theorem tgts_nil {v : Nat} {l : List (Nat × Nat)} (h : ∀ e ∈ l, e.1 ≠ v) : tgts v l = [] := by
  unfold tgts
  rw [List.filter_eq_nil_iff.2 (by simpa using h)]; rfl

theorem tgts_map_self (v : Nat) (l : List Nat) : tgts v (l.map (fun x => (v, x))) = l := by
  simp [tgts, List.filter_map, Function.comp_def]

theorem tgts_map_ne {v u : Nat} (h : u ≠ v) (l : List Nat) : tgts v (l.map (fun x => (u, x))) = [] := by
  apply tgts_nil
  intro e he
  obtain ⟨x, -, rfl⟩ := List.mem_map.1 he
  exact h

theorem dropped_snoc {s : Step} {u v : Nat} :
    Dropped g root (st ++ [s]) u v ↔ Dropped g root st u v ∨ Drops g root st s u v := by
  constructor
  · rintro ⟨pre, t, post, he, hd⟩
    rcases List.eq_nil_or_concat post with rfl | ⟨post', y, rfl⟩
    · have := List.append_inj' he (by simp)
      obtain ⟨rfl, e2⟩ := this
      simp at e2; subst e2; exact .inr hd
    · have e : pre ++ t :: (post' ++ [y]) = (pre ++ t :: post') ++ [y] := by simp
      rw [List.concat_eq_append, e] at he
      have := List.append_inj' he (by simp)
      exact .inl ⟨pre, t, post', this.1, hd⟩
  · rintro (⟨pre, t, post, rfl, hd⟩ | hd)
    · exact ⟨pre, t, post ++ [s], by simp, hd⟩
    · exact ⟨st, s, [], rfl, hd⟩

/-- The second invariant. -/
structure Inv2 (g : GraphI) (root : Nat) (st : List Step) (d : DepthFirst) : Prop where
  inv : Inv g root st d
  order : ∀ v, (tgts v (st.map Step.pair ++ d.stack)).Sublist (g.nbr v)
  start : st = [] → d.stack = (g.nbr root).map (fun x => (root, x))
  first : ∀ s post, st = s :: post → s.sid = root ∧ (g.nbr root).head? = some s.tid
  topmost : ∀ pre s, st = pre ++ [s] → s.cut = false →
    ∀ a, ((g.nbr s.tid).filter (fun x => x != s.sid)).head? = some a → d.stack.head? = some (s.tid, a)
  deeper : ∀ pre s t post, st = pre ++ s :: t :: post → s.cut = false →
    ∀ a, ((g.nbr s.tid).filter (fun x => x != s.sid)).head? = some a → t.sid = s.tid ∧ t.tid = a
  fate : ∀ u ∈ discovered root st, ∀ v, u ≠ v → g.Adj u v →
    (∀ s ∈ st, s.cut = false → ¬ (s.sid = v ∧ s.tid = u)) →
    (u, v) ∈ st.map Step.pair ∨ (u, v) ∈ d.stack ∨ Dropped g root st u v
  choice : ∀ pre t post, st = pre ++ t :: post → ∀ u v, Waiting g root pre u v →
    (u = t.sid ∧ v = t.tid) ∨ (Ancestor pre u t.sid ∧ (u = t.sid → [t.tid, v].Sublist (g.nbr u)))
  gone : ∀ u v, Dropped g root st u v → (u, v) ∉ st.map Step.pair ∧ (u, v) ∉ d.stack

theorem Dropped.mem {u v : Nat} (h : Dropped g root st u v) : u ∈ discovered root st := by
  obtain ⟨pre, s, post, rfl, -, h, -⟩ := h
  rw [mem_discovered] at h ⊢
  rcases h with h | ⟨t, h1, h2⟩
  · exact .inl h
  · exact .inr ⟨t, by simp [h1], h2⟩

theorem Inv2.waiting {u v : Nat} (h : Inv2 g root st d) (hw : Waiting g root st u v) : (u, v) ∈ d.stack := by
  rcases h.fate u hw.discovered v hw.ne hw.adj hw.not_parent with h1 | h1 | h1
  · obtain ⟨t, ht, e⟩ := List.mem_map.1 h1
    simp only [Step.pair, Prod.mk.injEq] at e
    exact absurd e (hw.not_reported t ht)
  · exact h1
  · exact absurd h1 hw.not_dropped

theorem mem_tgts {u v : Nat} {l : List (Nat × Nat)} (h : (u, v) ∈ l) : v ∈ tgts u l := by
  unfold tgts
  rw [List.mem_map]
  exact ⟨(u, v), by simp [h], rfl⟩

theorem inv2_new (hg : g.Lawful) (root : Nat) :
    Inv2 g root [] { nodes := [root], stack := (g.nbr root).map (fun n => (root, n)) } where
  inv := inv_new hg root
  order := by
    intro v
    by_cases h : root = v
    · subst h; simp [tgts_map_self]
    · simp [tgts_map_ne h]
  start := fun _ => rfl
  first := by simp
  topmost := by simp
  deeper := by simp
  fate := by
    intro u hu v hne ha _
    simp [discovered] at hu; subst hu
    right; left
    simp [GraphI.mem_nbr, ha]
  choice := by simp
  gone := by rintro u v ⟨pre, s, post, h, -⟩; simp at h

theorem snoc_first {α : Type} {st : List α} {s x : α} {post : List α} (h : st ++ [s] = x :: post) :
    (st = [] ∧ s = x) ∨ ∃ post', st = x :: post' := by
  cases st with
  | nil => left; simp at h; exact ⟨rfl, h.1⟩
  | cons a l => right; simp at h; exact ⟨l, by rw [h.1]⟩

/-- The parts of the invariant that do not depend on the kind of step. -/
theorem Inv2.common {p n : Nat} {c : Bool} {rest : List (Nat × Nat)} (h : Inv2 g root st d)
    (hq : d.stack = (p, n) :: rest) :
    (∀ s post, st ++ [⟨p, n, c⟩] = s :: post → s.sid = root ∧ (g.nbr root).head? = some s.tid) ∧
    (∀ pre s t post, st ++ [⟨p, n, c⟩] = pre ++ s :: t :: post → s.cut = false →
      ∀ a, ((g.nbr s.tid).filter (fun x => x != s.sid)).head? = some a → t.sid = s.tid ∧ t.tid = a) ∧
    (∀ pre t post, st ++ [⟨p, n, c⟩] = pre ++ t :: post → ∀ u v, Waiting g root pre u v →
      (u = t.sid ∧ v = t.tid) ∨ (Ancestor pre u t.sid ∧ (u = t.sid → [t.tid, v].Sublist (g.nbr u)))) := by
  refine ⟨?_, ?_, ?_⟩
  · intro s post he
    rcases snoc_first he with ⟨h1, h2⟩ | ⟨post', h1⟩
    · have := h.start h1
      rw [hq] at this
      cases hr : g.nbr root with
      | nil => rw [hr] at this; simp at this
      | cons a l =>
        rw [hr] at this; simp at this
        rw [← h2]; simp [this.1]
    · exact h.first s post' h1
  · intro pre s t post he hc a ha
    rcases List.eq_nil_or_concat post with rfl | ⟨post', y, rfl⟩
    · have e : pre ++ [s, t] = (pre ++ [s]) ++ [t] := by simp
      rw [e] at he
      obtain ⟨h1, h2⟩ := List.append_inj' he (by simp)
      have := h.topmost pre s h1 hc a ha
      rw [hq] at this
      simp at this h2
      rw [← h2]; exact this
    · have e : pre ++ s :: t :: (post' ++ [y]) = (pre ++ s :: t :: post') ++ [y] := by simp
      rw [List.concat_eq_append, e] at he
      have := List.append_inj' he (by simp)
      exact h.deeper pre s t post' this.1 hc a ha

  · intro pre t post he u v hw
    rcases List.eq_nil_or_concat post with rfl | ⟨post', y, rfl⟩
    · obtain ⟨h1, h2⟩ := List.append_inj' he (by simp)
      simp at h2
      subst h1 h2
      have hm := h.waiting hw
      have ho := h.order u
      have hch := h.inv.chain
      rw [hq] at hm ho hch
      simp only [List.mem_cons, Prod.mk.injEq] at hm
      rcases hm with hm | hm
      · exact .inl hm
      · refine .inr ⟨(List.pairwise_cons.1 hch).1 _ hm, ?_⟩
        simp only
        rintro rfl
        refine List.Sublist.trans ?_ ho
        rw [tgts_append]
        refine List.Sublist.trans ?_ (List.sublist_append_right _ _)
        have e : tgts u ((u, n) :: rest) = n :: tgts u rest := by simp [tgts]
        rw [e]
        exact List.Sublist.cons_cons _ (List.singleton_sublist.2 (mem_tgts hm))
    · have e : pre ++ t :: (post' ++ [y]) = (pre ++ t :: post') ++ [y] := by simp
      rw [List.concat_eq_append, e] at he
      have := List.append_inj' he (by simp)
      exact h.choice pre t post' this.1 u v hw

theorem pushAll_head {visited : List Nat} {p n : Nat} {ns : List Nat} {rest : List (Nat × Nat)} {a : Nat}
    (h : (ns.filter (fun x => x != p)).head? = some a) : (pushAll visited p n ns rest).head? = some (n, a) := by
  induction ns with
  | nil => simp at h
  | cons b ns ih =>
    rw [pushAll_cons]
    unfold pushNeighbor
    by_cases hb : b = p
    · subst hb
      simp only [beq_self_eq_true, if_true]
      apply ih
      simpa using h
    · simp [hb] at h
      subst h
      simp [hb]

theorem Inv2.step_cut (h : Inv2 g root st d) {p n : Nat} {rest : List (Nat × Nat)} (hq : d.stack = (p, n) :: rest)
    (hv : n ∈ discovered root st) : Inv2 g root (st ++ [⟨p, n, true⟩]) { d with stack := rest } := by
  have hd : discovered root (st ++ [⟨p, n, true⟩]) = discovered root st := discovered_cut _ _ _ rfl
  have hdr : ∀ u v, Dropped g root (st ++ [⟨p, n, true⟩]) u v ↔ Dropped g root st u v := by
    intro u v
    rw [dropped_snoc]
    constructor
    · rintro (h | h)
      · exact h
      · exact absurd h.1 (by simp)
    · exact .inl
  refine ⟨h.inv.next_cut hq hv, ?_, by simp, (h.common hq).1, ?_, (h.common hq).2.1, ?_, (h.common hq).2.2, ?_⟩
  · intro v
    have := h.order v
    rw [hq] at this
    simpa [Step.pair] using this
  · intro pre s he hc
    have := (List.append_inj' he (by simp)).2
    simp at this; subst this; simp at hc
  · intro u hu v hne ha hp
    rw [hd] at hu
    rcases h.fate u hu v hne ha (fun s hs => hp s (by simp [hs])) with h1 | h1 | h1
    · left; simp at h1 ⊢; exact .inl h1
    · rw [hq] at h1
      simp only [List.mem_cons] at h1
      rcases h1 with h1 | h1
      · left; simp [Step.pair, h1]
      · right; left; exact h1
    · right; right; exact (hdr u v).2 h1
  · intro u v hd
    obtain ⟨h1, h2⟩ := h.gone u v ((hdr u v).1 hd)
    rw [hq] at h2
    simp only [List.mem_cons, not_or] at h2
    refine ⟨?_, h2.2⟩
    simp only [List.map_append, List.map_cons, List.map_nil, List.mem_append, List.mem_singleton, not_or]
    exact ⟨h1, fun e => h2.1 (by rw [e]; rfl)⟩

theorem Inv2.step_new (hg : g.Lawful) (h : Inv2 g root st d) {p n : Nat} {rest : List (Nat × Nat)}
    (hq : d.stack = (p, n) :: rest) (hv : n ∉ discovered root st) :
    Inv2 g root (st ++ [⟨p, n, false⟩])
      { nodes := n :: d.nodes, stack := pushAll d.nodes p n (g.nbr n) rest } := by
  have hd : discovered root (st ++ [⟨p, n, false⟩]) = discovered root st ++ [n] := by
    simp [discovered]
  have hmem : ∀ x, x ∈ d.nodes ↔ x ∈ discovered root st := by
    intro x; rw [h.inv.nodes, List.mem_reverse]
  have hnn : n ∉ d.nodes := by rw [hmem]; exact hv
  have hpn : p ∈ discovered root st := (h.inv.stack_mem (p, n) (by rw [hq]; simp)).1
  have hsrc : ∀ e ∈ st.map Step.pair ++ d.stack, e.1 ≠ n := by
    rintro e he rfl
    rw [List.mem_append] at he
    rcases he with he | he
    · obtain ⟨s, hs, rfl⟩ := List.mem_map.1 he
      exact hv (h.inv.truth.sid_mem hs)
    · exact hv (h.inv.stack_mem e he).1
  refine ⟨h.inv.next_new hg hq hv, ?_, by simp, (h.common hq).1, ?_, (h.common hq).2.1, ?_, (h.common hq).2.2, ?_⟩
  · intro v
    have h0 := h.order v
    have hs := tgts_sublist (v := v) (pushAll_sublist d.nodes p n (g.nbr n) rest)
    rw [hq] at h0
    by_cases hvn : n = v
    · subst hvn
      have h1 : tgts n (List.map Step.pair (st ++ [⟨p, n, false⟩])) = [] := by
        apply tgts_nil
        intro e he
        simp only [List.map_append, List.map_cons, List.map_nil, List.mem_append, List.mem_singleton] at he
        rcases he with he | he
        · exact hsrc e (by simp only [List.mem_append]; exact .inl he)
        · subst he; intro e; exact hv (by simp only [Step.pair] at e; rw [← e]; exact hpn)
      rw [tgts_append, h1, List.nil_append]
      refine hs.trans ?_
      rw [tgts_append, tgts_map_self, tgts_nil (l := rest), List.append_nil]
      · exact List.filter_sublist
      · intro e he; exact hsrc e (by rw [hq]; simp [he])
    · rw [tgts_append, tgts_map_ne hvn, List.nil_append] at hs
      refine List.Sublist.trans ?_ h0
      have e1 : st.map Step.pair ++ (p, n) :: rest = List.map Step.pair (st ++ [⟨p, n, false⟩]) ++ rest := by
        simp [Step.pair]
      rw [e1, tgts_append, tgts_append (l' := rest)]
      exact (List.Sublist.refl _).append hs
  · intro pre s he hc a ha
    have := (List.append_inj' he (by simp)).2
    simp at this; subst this
    exact pushAll_head ha
  · intro u hu v hne ha hp
    rw [hd, List.mem_append, List.mem_singleton] at hu
    rcases hu with hu | rfl
    · have hun : u ≠ n := by rintro rfl; exact hv hu
      by_cases hrep : (u, v) ∈ List.map Step.pair (st ++ [⟨p, n, false⟩])
      · exact .inl hrep
      have hrep' := hrep
      simp only [List.map_append, List.map_cons, List.map_nil, List.mem_append, List.mem_singleton, not_or] at hrep
      rcases h.fate u hu v hne ha (fun s hs => hp s (by simp [hs])) with h1 | h1 | h1
      · exact absurd h1 hrep.1
      · rw [hq] at h1
        simp only [List.mem_cons] at h1
        rcases h1 with h1 | h1
        · exact absurd h1 hrep.2
        · rcases mem_pushAll_or (visited := d.nodes) (p := p) (n := n) (ns := g.nbr n) h1 with h2 | ⟨w, h2, h3, h4, h5⟩
          · exact .inr (.inl h2)
          · right; right
            rw [dropped_snoc]
            right
            refine ⟨rfl, hu, ?_, ?_, ?_⟩
            · rintro t ht ⟨rfl, rfl⟩
              exact hrep.1 (List.mem_map.2 ⟨t, ht, rfl⟩)
            · rintro ⟨h6, h7⟩
              exact hrep.2 (by simp only at h6 h7; rw [← h6, ← h7]; rfl)
            · rcases h5 with h5 | h5
              · left
                simp only at h5; subst h5
                exact ⟨Ne.symm h3, GraphI.mem_nbr.1 h2⟩
              · right
                exact ⟨h5.symm, w, (hmem w).1 h4, h3, GraphI.mem_nbr.1 h2⟩
      · right; right; rw [dropped_snoc]; exact .inl h1
    · right; left
      refine mem_pushAll_new hnn (GraphI.mem_nbr.2 ha) ?_ (Ne.symm hne)
      rintro rfl
      exact hp ⟨v, u, false⟩ (by simp) rfl ⟨rfl, rfl⟩
  · intro u v hdr
    have hu : u ≠ n := by
      rintro rfl
      rw [dropped_snoc] at hdr
      rcases hdr with h1 | h1
      · exact hv h1.mem
      · exact hv h1.2.1
    rw [dropped_snoc] at hdr
    rcases hdr with h1 | h1
    · obtain ⟨h2, h3⟩ := h.gone u v h1
      rw [hq] at h3
      simp only [List.mem_cons, not_or] at h3
      refine ⟨?_, ?_⟩
      · simp only [List.map_append, List.map_cons, List.map_nil, List.mem_append, List.mem_singleton, not_or]
        exact ⟨h2, fun e => h3.1 (by rw [e]; rfl)⟩
      · intro hc
        rcases pushAll_mem hc with hc | hc
        · exact hu hc.1
        · exact h3.2 hc
    · obtain ⟨-, h2, h3, h4, h5⟩ := h1
      refine ⟨?_, ?_⟩
      · simp only [List.map_append, List.map_cons, List.map_nil, List.mem_append, List.mem_singleton, not_or]
        refine ⟨?_, ?_⟩
        · intro hc
          obtain ⟨t, ht, e⟩ := List.mem_map.1 hc
          simp only [Step.pair, Prod.mk.injEq] at e
          exact h3 t ht e
        · intro e
          simp only [Step.pair, Prod.mk.injEq] at e
          exact h4 ⟨e.1.symm, e.2.symm⟩
      · intro hc
        rcases h5 with ⟨h5, h6⟩ | ⟨h5, w, h6, h7, h8⟩
        · exact (pushAll_kept hc hu (w := u) (GraphI.mem_nbr.2 h6) (Ne.symm h5) ((hmem u).2 h2)).1 rfl
        · exact (pushAll_kept hc hu (w := w) (GraphI.mem_nbr.2 h8) h7 ((hmem w).2 h6)).2 h5.symm

theorem Inv2.next (hg : g.Lawful) (h : Inv2 g root st d) :
    DepthFirst.next g d = .ok (none, d) ∨
    ∃ s d', DepthFirst.next g d = .ok (some s, d') ∧ Inv2 g root (st ++ [s]) d' ∧
      measure g d' < measure g d := by
  rcases h.inv.next hg with h1 | ⟨s, d', h1, h2, h3⟩
  · exact .inl h1.1
  · right
    refine ⟨s, d', h1, ?_, h3⟩
    cases hq : d.stack with
    | nil => simp [DepthFirst.next, hq] at h1
    | cons e rest =>
      obtain ⟨p, n⟩ := e
      have hmem : ∀ x, x ∈ d.nodes ↔ x ∈ discovered root st := by
        intro x; rw [h.inv.nodes, List.mem_reverse]
      by_cases hv : n ∈ d.nodes
      · simp [DepthFirst.next, hq, hv] at h1
        obtain ⟨rfl, rfl⟩ := h1
        exact h.step_cut hq ((hmem n).1 hv)
      · have hn : n ∈ g.nodes := hg.adj_mem _ _ (h.inv.stack_mem (p, n) (by rw [hq]; simp)).2
        simp only [DepthFirst.next, hq] at h1
        simp only [List.contains_iff_mem, hv, Bool.false_eq_true, if_false, hg.neighbors_eq hn, Out.expect_ok,
          Out.ok_bind, foldl_reverse_push, Out.ok.injEq, Prod.mk.injEq, Option.some.injEq] at h1
        obtain ⟨rfl, rfl⟩ := h1
        exact h.step_new hg hq (by rw [← hmem]; exact hv)

theorem Run.inv2 (hg : g.Lawful) {steps : List Step} (h : DepthFirst.Run g root steps) :
    ∃ d, Inv2 g root steps d ∧ d.stack = [] := by
  obtain ⟨hr, d, d', e, t, he, i, q⟩ := h.inv hg
  obtain ⟨l, d'', t', e', i'⟩ := exists_trace (next := DepthFirst.next g) (Inv2 g root) (measure g)
    (fun l s h => h.next hg) [] _ (inv2_new hg root)
  rw [new_eq hg hr] at e; injection e with e; subst e
  have := endsAfter_unique (endsAfter_of_trace t he) (endsAfter_of_trace t' e')
  subst this
  refine ⟨d'', by simpa using i', ?_⟩
  rcases i'.inv.next hg with ⟨-, h⟩ | ⟨s, d3, h, -⟩
  · exact h
  · rw [e'] at h; simp at h

end DepthFirst
end Gamma
