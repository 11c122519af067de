import Verif.Proofs.DfsTame
/-
The order of neighbors can be chosen so that a depth-first traversal follows a given path.
-/
namespace Gamma

/-- The node after `v` in a list. -/
def nextIn : List Nat → Nat → Option Nat
  | a :: b :: l, v => if v = a then some b else nextIn (b :: l) v
  | _, _ => none

theorem nextIn_append {A : List Nat} {u v : Nat} {B : List Nat} (h : (A ++ u :: v :: B).Nodup) :
    nextIn (A ++ u :: v :: B) u = some v := by
  induction A with
  | nil => simp [nextIn]
  | cons a A ih =>
    have hu : u ≠ a := by
      rintro rfl
      simp at h
    have h' : (A ++ u :: v :: B).Nodup := by simpa using (List.nodup_cons.1 (by simpa using h)).2
    cases A with
    | nil => simpa [nextIn, hu] using ih h'
    | cons c A => simpa [nextIn, hu] using ih h'

theorem nextIn_adj {R : Nat → Nat → Prop} {P : List Nat} (hP : P.IsChain R) {v w : Nat} (h : nextIn P v = some w) : R v w := by
  induction P with
  | nil => simp [nextIn] at h
  | cons a P ih =>
    cases P with
    | nil => simp [nextIn] at h
    | cons b P =>
      rw [List.isChain_cons_cons] at hP
      unfold nextIn at h
      split at h
      · rename_i e; injection h with h; subst h e; exact hP.1
      · exact ih hP.2 h

/-- A list with `w` moved to the front. -/
def toFront (w : Option Nat) (l : List Nat) : List Nat :=
  match w with
  | some w => if w ∈ l then w :: l.erase w else l
  | none => l

theorem toFront_perm (w : Option Nat) (l : List Nat) : (toFront w l).Perm l := by
  unfold toFront
  cases w with
  | none => exact .refl _
  | some w =>
    simp only
    split
    · rename_i h; exact (List.perm_cons_erase h).symm
    · exact .refl _

/-- The graph with the neighbors reordered so that `nxt v` comes first. -/
def GraphI.reorder (g : GraphI) (nxt : Nat → Option Nat) : GraphI :=
  { g with neighbors := fun v => g.neighbors v >>= fun l => .ok (toFront (nxt v) l) }

theorem GraphI.reorder_ok {g : GraphI} {nxt : Nat → Option Nat} {v : Nat} {l : List Nat} :
    (g.reorder nxt).neighbors v = .ok l ↔ ∃ l0, g.neighbors v = .ok l0 ∧ l = toFront (nxt v) l0 := by
  show (g.neighbors v >>= fun l => Out.ok (toFront (nxt v) l)) = .ok l ↔ _
  rw [Out.bind_eq_ok]
  constructor
  · rintro ⟨l0, h1, h2⟩; injection h2 with h2; exact ⟨l0, h1, h2.symm⟩
  · rintro ⟨l0, h1, rfl⟩; exact ⟨l0, h1, rfl⟩

theorem GraphI.reorder_adj {g : GraphI} {nxt : Nat → Option Nat} {u v : Nat} : (g.reorder nxt).Adj u v ↔ g.Adj u v := by
  constructor
  · rintro ⟨l, hl, hv⟩
    obtain ⟨l0, h1, rfl⟩ := GraphI.reorder_ok.1 hl
    exact ⟨l0, h1, (toFront_perm _ _).mem_iff.1 hv⟩
  · rintro ⟨l, hl, hv⟩
    exact ⟨_, GraphI.reorder_ok.2 ⟨l, hl, rfl⟩, (toFront_perm _ _).mem_iff.2 hv⟩

theorem GraphI.reorder_lawful {g : GraphI} (hg : g.Lawful) (nxt : Nat → Option Nat) : (g.reorder nxt).Lawful where
  nodes_nodup := hg.nodes_nodup
  isEmpty_eq := hg.isEmpty_eq
  order_eq := hg.order_eq
  size_eq := hg.size_eq
  hasNode_iff := hg.hasNode_iff
  neighbors_ok := by
    intro v hv
    obtain ⟨l, h⟩ := hg.neighbors_ok v hv
    exact ⟨_, GraphI.reorder_ok.2 ⟨l, h, rfl⟩⟩
  neighbors_err := by
    intro v hv
    show (g.neighbors v >>= fun l => Out.ok (toFront (nxt v) l)) = _
    rw [hg.neighbors_err v hv]; rfl
  degree_eq := by
    intro v
    show g.degree v = ((g.neighbors v >>= fun l => Out.ok (toFront (nxt v) l)) >>= _)
    rw [hg.degree_eq]
    cases g.neighbors v with
    | ok l => simp [(toFront_perm (nxt v) l).length_eq]
    | err e => rfl
    | panic m => rfl
    | timeout => rfl
  adj_symm := by intro u v h; rw [GraphI.reorder_adj] at h ⊢; exact hg.adj_symm u v h
  adj_mem := by intro u v h; rw [GraphI.reorder_adj] at h; exact hg.adj_mem u v h
  neighbor_once := by
    intro u v l hl huv
    obtain ⟨l0, h1, rfl⟩ := GraphI.reorder_ok.1 hl
    rw [(toFront_perm _ _).count_eq]
    exact hg.neighbor_once u v l0 h1 huv
  hasEdge_ok := by
    intro u v hu hv
    obtain ⟨b, h1, h2⟩ := hg.hasEdge_ok u v hu hv
    exact ⟨b, h1, by rw [h2, GraphI.reorder_adj]⟩
  hasEdge_err_left := hg.hasEdge_err_left
  hasEdge_err_right := hg.hasEdge_err_right
  edges_adj := by intro u v h; rw [GraphI.reorder_adj]; exact hg.edges_adj u v h
  adj_edges := by intro u v h1 h2; rw [GraphI.reorder_adj] at h2; exact hg.adj_edges u v h1 h2
  edges_once := hg.edges_once

theorem GraphI.reorder_reordered {g : GraphI} (nxt : Nat → Option Nat) : GraphI.Reordered g (g.reorder nxt) where
  nodes := rfl
  edges := rfl
  neighbors := fun _ _ l hl => ⟨_, GraphI.reorder_ok.2 ⟨l, hl, rfl⟩, toFront_perm _ _⟩

theorem GraphI.reorder_head {g : GraphI} (hg : g.Lawful) {nxt : Nat → Option Nat} {v w : Nat} (hw : nxt v = some w) (ha : g.Adj v w) :
    ∃ l, (g.reorder nxt).nbr v = w :: l := by
  have hv := hg.adj_src ha
  have := GraphI.nbr_of_ok ((GraphI.reorder_ok (nxt := nxt)).2 ⟨_, hg.neighbors_eq hv, rfl⟩)
  rw [this, hw]
  refine ⟨(g.nbr v).erase w, ?_⟩
  have hm : w ∈ g.nbr v := GraphI.mem_nbr.2 ha
  simp [toFront, hm]

theorem GraphI.Reordered.adj {g h : GraphI} (hg : g.Lawful) (hh : h.Lawful) (r : GraphI.Reordered g h) {u v : Nat} :
    h.Adj u v ↔ g.Adj u v := by
  constructor
  · rintro ⟨l, hl, hv⟩
    have hu : u ∈ g.nodes := by rw [← r.nodes]; exact hh.adj_src ⟨l, hl, hv⟩
    obtain ⟨l', h1, h2⟩ := r.neighbors u hu _ (hg.neighbors_eq hu)
    rw [hl] at h1; injection h1 with h1; subst h1
    exact GraphI.mem_nbr.1 (h2.mem_iff.1 hv)
  · rintro ⟨l, hl, hv⟩
    have hu : u ∈ g.nodes := hg.adj_src ⟨l, hl, hv⟩
    obtain ⟨l', h1, h2⟩ := r.neighbors u hu _ hl
    exact ⟨l', h1, h2.mem_iff.2 hv⟩

theorem GraphI.Reordered.simple {g h : GraphI} (hg : g.Lawful) (hh : h.Lawful) (r : GraphI.Reordered g h) : h.simple = g.simple := by
  unfold GraphI.simple
  congr 1
  funext u v
  exact propext (r.adj hg hh)

/-- `h` has the edges of `g`, and lists first, among the neighbors of a node of the path `P`, the next node of the path. -/
structure Steers (g h : GraphI) (P : List Nat) : Prop where
  lawful : h.Lawful
  adj : ∀ u v, h.Adj u v ↔ g.Adj u v
  head : ∀ v w, nextIn P v = some w → ∃ l, h.nbr v = w :: l

theorem GraphI.reorder_steers {g : GraphI} (hg : g.Lawful) {P : List Nat} (hc : P.IsChain g.Adj) :
    Steers g (g.reorder (nextIn P)) P :=
  ⟨GraphI.reorder_lawful hg _, fun _ _ => GraphI.reorder_adj, fun _ _ h => GraphI.reorder_head hg h (nextIn_adj hc h)⟩

namespace DepthFirst

theorem pushNeighbor_source {vis : List Nat} {p n x : Nat} (hx : n ≠ x) (st : List (Nat × Nat)) (y : Nat) (h : ∀ e ∈ st, e.1 ≠ x) :
    ∀ e ∈ pushNeighbor vis p n st y, e.1 ≠ x := by
  unfold pushNeighbor
  split
  · exact h
  · intro e he
    rw [List.mem_cons] at he
    rcases he with rfl | he
    · exact hx
    · split at he
      · exact h e (List.mem_filter.1 he).1
      · exact h e he

/-- Discovering a node with a visited neighbor `x`, other than the parent, removes all that `x` has pending. -/
theorem pushAll_no_source {vis : List Nat} {p n x : Nat} (hx : n ≠ x) (hv : x ∈ vis) (hp : x ≠ p) :
    ∀ {ns : List Nat} {st : List (Nat × Nat)}, x ∈ ns → ∀ e ∈ pushAll vis p n ns st, e.1 ≠ x := by
  intro ns
  induction ns with
  | nil => intro st h; simp at h
  | cons y ns ih =>
    intro st h
    show ∀ e ∈ pushNeighbor vis p n (pushAll vis p n ns st) y, e.1 ≠ x
    by_cases hy : x ∈ ns
    · exact pushNeighbor_source hx _ _ (ih hy)
    · have hxy : x = y := (List.mem_cons.1 h).resolve_right hy
      subst hxy
      unfold pushNeighbor
      have h1 : (x == p) = false := by simpa using hp
      simp only [h1, Bool.false_eq_true, if_false, List.contains_iff_mem.2 hv, if_true]
      intro e he
      rw [List.mem_cons] at he
      rcases he with rfl | he
      · exact hx
      · have := (List.mem_filter.1 he).2
        simp only [Bool.and_eq_true, bne_iff_ne] at this
        exact this.1

/-- Every entry is an old one or leads from the new node to a neighbor. -/
theorem mem_pushAll {vis : List Nat} {p n : Nat} {ns : List Nat} {st : List (Nat × Nat)} {e : Nat × Nat} (h : e ∈ pushAll vis p n ns st) :
    e ∈ st ∨ (e.1 = n ∧ e.2 ∈ ns) := by
  induction ns with
  | nil => exact .inl h
  | cons y ns ih =>
    change e ∈ pushNeighbor vis p n (pushAll vis p n ns st) y at h
    have key : e ∈ pushAll vis p n ns st ∨ e = (n, y) := by
      unfold pushNeighbor at h
      split at h
      · exact .inl h
      · rw [List.mem_cons] at h
        rcases h with h | h
        · exact .inr h
        · split at h
          · exact .inl (List.mem_filter.1 h).1
          · exact .inl h
    rcases key with h | rfl
    · rcases ih h with h | h
      · exact .inl h
      · exact .inr ⟨h.1, List.mem_cons_of_mem _ h.2⟩
    · exact .inr ⟨rfl, List.mem_cons_self⟩

theorem next_new_eq {g : GraphI} (hg : g.Lawful) {d : DepthFirst} {p n : Nat} {rest : List (Nat × Nat)} (hq : d.stack = (p, n) :: rest)
    (hv : n ∉ d.nodes) (hn : n ∈ g.nodes) :
    DepthFirst.next g d = .ok (some ⟨p, n, false⟩, { nodes := n :: d.nodes, stack := pushAll d.nodes p n (g.nbr n) rest }) := by
  have hc : d.nodes.contains n = false := by simpa using hv
  simp only [DepthFirst.next, hq, hc, Bool.false_eq_true, if_false, hg.neighbors_eq hn, Out.expect, Out.ok_bind, foldl_reverse_push]

/-- The traversal follows the path `P` if the neighbors are in the right order; and at the end of the path, nothing is pending
at the nodes before its last but one that are neighbors of the last. -/
theorem follow {g h : GraphI} {root : Nat} {P : List Nat} (hP : P.Nodup) (hS : Steers g h P) (B : List Nat) :
    ∀ {A : List Nat} {u v : Nat}, P = A ++ u :: v :: B → ∀ {st : List Step} {d : DepthFirst} {rest : List (Nat × Nat)},
    Inv h root st d → discovered root st = A ++ [u] → d.stack = (u, v) :: rest →
    ∃ st' d', Trace (DepthFirst.next h) d st' d' ∧ Inv h root (st ++ st') d' ∧
      discovered root (st ++ st') = P ∧
      ∀ x z, P.getLast? = some z → P.dropLast.getLast? ≠ some x → x ∈ P → x ≠ z → g.Adj z x → ∀ e ∈ d'.stack, e.1 ≠ x := by
  have hl := hS.lawful
  induction B with
  | nil =>
    intro A u v e st d rest hi hd hs
    subst e
    have hv : v ∉ discovered root st := by
      rw [hd]; intro hm
      rw [show A ++ [u, v] = (A ++ [u]) ++ [v] by simp, List.nodup_append] at hP
      exact hP.2.2 v hm v (by simp) rfl
    have hvn : v ∉ d.nodes := by rw [hi.nodes]; simpa using hv
    have hn : v ∈ h.nodes := hl.adj_mem u v (hi.stack_mem (u, v) (by rw [hs]; simp)).2
    refine ⟨[⟨u, v, false⟩], _, .cons _ _ _ _ _ (next_new_eq hl hs hvn hn) (.nil _), hi.next_new hl hs hv, ?_, ?_⟩
    · rw [discovered_new _ _ _ rfl, hd]; simp
    · intro x z hz hx hxm hxz hadj
      have : z = v := by simpa using hz.symm
      subst this
      have hxu : x ≠ u := by
        rintro rfl
        apply hx
        rw [show A ++ [x, z] = (A ++ [x]) ++ [z] by simp, List.dropLast_concat]; simp
      refine pushAll_no_source (Ne.symm hxz) ?_ hxu (GraphI.mem_nbr.2 ((hS.adj _ _).2 hadj))
      rw [hi.nodes, List.mem_reverse, hd]
      simp only [List.mem_append, List.mem_cons, List.not_mem_nil, or_false] at hxm ⊢
      tauto
  | cons w B ih =>
    intro A u v e st d rest hi hd hs
    have hv : v ∉ discovered root st := by
      rw [hd]; intro hm
      rw [e, show A ++ u :: v :: w :: B = (A ++ [u]) ++ (v :: w :: B) by simp, List.nodup_append] at hP
      exact hP.2.2 v hm v (by simp) rfl
    have hvn : v ∉ d.nodes := by rw [hi.nodes]; simpa using hv
    have hn : v ∈ h.nodes := hl.adj_mem u v (hi.stack_mem (u, v) (by rw [hs]; simp)).2
    have e' : P = (A ++ [u]) ++ v :: w :: B := by rw [e]; simp
    have hnext : nextIn P v = some w := by
      have := nextIn_append (A := A ++ [u]) (u := v) (v := w) (B := B) (by rw [← e']; exact hP)
      rw [← e'] at this; exact this
    obtain ⟨l, hnb⟩ := hS.head _ _ hnext
    have hwu : w ≠ u := by
      rintro rfl
      rw [e] at hP
      have := (List.nodup_append.1 hP).2.1
      simp at this
    have htop : ∃ rest', pushAll d.nodes u v (h.nbr v) rest = (v, w) :: rest' := by
      rw [hnb]
      show ∃ rest', pushNeighbor d.nodes u v _ w = _
      unfold pushNeighbor
      have : (w == u) = false := by simpa using hwu
      simp only [this, Bool.false_eq_true, if_false]
      exact ⟨_, rfl⟩
    obtain ⟨rest', hr⟩ := htop
    have hi1 := hi.next_new hl hs hv
    have hd1 : discovered root (st ++ [⟨u, v, false⟩]) = (A ++ [u]) ++ [v] := by
      rw [discovered_new _ _ _ rfl, hd]
    obtain ⟨st', d', t, i, h1, h2⟩ := ih e' hi1 hd1 hr
    refine ⟨⟨u, v, false⟩ :: st', d', .cons _ _ _ _ _ (next_new_eq hl hs hvn hn) t, by simpa using i, by simpa using h1, h2⟩

/-- If the traversal can follow a path through `x` to a node `z` that is adjacent to `x`, then the neighbors of `x` from which no
node of the path can be reached except through `x` can be missed. -/
theorem miss {g h : GraphI} (hg : g.Lawful) {root : Nat} {P : List Nat} (hP : P.Nodup) (hc : P.IsChain g.Adj) (hS : Steers g h P)
    (hroot : P.head? = some root) {x z b : Nat} (hz : P.getLast? = some z) (hx : x ∈ P) (hxz : x ≠ z)
    (hpre : P.dropLast.getLast? ≠ some x) (hzx : g.Adj z x) (hb : ∀ y ∈ P, ¬ JoinedAround g x b y) (hbx : b ≠ x) :
    ∃ st, DepthFirst.Run h root st ∧ b ∉ discovered root st := by
  have hl := hS.lawful
  -- the path has at least two nodes
  obtain ⟨v, B, rfl⟩ : ∃ v B, P = root :: v :: B := by
    match P, hroot, hz, hx with
    | [a], h1, h2, h3 => simp at h2 h3; exact absurd (h3.trans h2) hxz
    | a :: v :: B, h1, _, _ => simp at h1; subst h1; exact ⟨v, B, rfl⟩
  have hadj : g.Adj root v := (List.isChain_cons_cons.1 hc).1
  have hr : root ∈ h.nodes := hl.adj_src ((hS.adj _ _).2 hadj)
  have hnext : nextIn (root :: v :: B) root = some v := by simp [nextIn]
  obtain ⟨l, hnb⟩ := hS.head _ _ hnext
  obtain ⟨st', d', t, i, h1, h2⟩ := follow hP hS B (A := []) (u := root) (v := v) rfl (inv_new hl root) (by simp [discovered])
    (rest := l.map (fun n => (root, n))) (by simp only [hnb]; rfl)
  rw [List.nil_append] at i h1
  have h2' := h2 x z hz hpre hx hxz hzx
  -- what is joined to `b` around `x`
  have closed : ∀ u w, JoinedAround g x b u → g.Adj u w → w ≠ x → JoinedAround g x b w := by
    rintro u w ⟨q, hq⟩ ha hw
    by_cases huw : u = w
    · exact huw ▸ ⟨q, hq⟩
    · refine ⟨q.concat ((hg.simple_adj).2 ⟨huw, ha⟩), ?_⟩
      rw [SimpleGraph.Walk.support_concat, List.mem_append, not_or]
      exact ⟨hq, by simpa using Ne.symm hw⟩
  let J : List Step → DepthFirst → Prop := fun st d => Inv h root st d ∧
    (∀ e ∈ d.stack, ¬ JoinedAround g x b e.2) ∧ (∀ y ∈ d.nodes, ¬ JoinedAround g x b y) ∧ x ∈ d.nodes
  have hJ : J st' d' := by
    have hnodes : ∀ y, y ∈ d'.nodes ↔ y ∈ root :: v :: B := by intro y; rw [i.nodes, List.mem_reverse, h1]
    refine ⟨i, ?_, fun y hy => hb y ((hnodes y).1 hy), (hnodes x).2 hx⟩
    intro e he hj
    obtain ⟨m1, m2⟩ := i.stack_mem e he
    rw [hS.adj] at m2
    rw [h1] at m1
    exact hb e.1 m1 (closed e.2 e.1 hj (hg.adj_symm _ _ m2) (h2' e he))
  have step : ∀ l s, J l s → (DepthFirst.next h s = .ok (none, s)) ∨
      ∃ a s', DepthFirst.next h s = .ok (some a, s') ∧ J (l ++ [a]) s' ∧
        measure h s' < measure h s := by
    rintro l s ⟨hi, hs, hn, hxs⟩
    rcases hi.next hl with ⟨hx, -⟩ | ⟨a, s', hx, hi', hm⟩
    · exact .inl hx
    · refine .inr ⟨a, s', hx, ⟨hi', ?_⟩, hm⟩
      cases hq : s.stack with
      | nil => simp [DepthFirst.next, hq] at hx
      | cons e rest =>
        obtain ⟨p, n⟩ := e
        have hn0 : ¬ JoinedAround g x b n := hs (p, n) (by rw [hq]; simp)
        by_cases hv : n ∈ s.nodes
        · have hc : s.nodes.contains n = true := by simpa using hv
          simp only [DepthFirst.next, hq, hc, if_true] at hx
          injection hx with hx
          simp only [Prod.mk.injEq] at hx
          obtain ⟨-, rfl⟩ := hx
          exact ⟨fun e he => hs e (by rw [hq]; exact List.mem_cons_of_mem _ he), hn, hxs⟩
        · have hng : n ∈ h.nodes := hl.adj_mem p n (hi.stack_mem (p, n) (by rw [hq]; simp)).2
          rw [next_new_eq hl hq hv hng] at hx
          injection hx with hx
          simp only [Prod.mk.injEq] at hx
          obtain ⟨-, rfl⟩ := hx
          refine ⟨?_, ?_, List.mem_cons_of_mem _ hxs⟩
          · intro e he hj
            rcases mem_pushAll he with he | ⟨h3, h4⟩
            · exact hs e (by rw [hq]; exact List.mem_cons_of_mem _ he) hj
            · have ha : g.Adj n e.2 := (hS.adj _ _).1 (GraphI.mem_nbr.1 h4)
              exact hn0 (closed e.2 n hj (hg.adj_symm _ _ ha) (by rintro rfl; exact hv hxs))
          · intro y hy
            rcases List.mem_cons.1 hy with rfl | hy
            · exact hn0
            · exact hn y hy
  obtain ⟨l2, d2, t2, e2, j2⟩ := exists_trace (next := DepthFirst.next h) J
    (measure h) step st' d' hJ
  refine ⟨st' ++ l2, ⟨_, new_eq hl hr, endsAfter_of_trace (t.append t2) e2⟩, fun hm => ?_⟩
  have : b ∈ d2.nodes := by rw [j2.1.nodes, List.mem_reverse]; exact hm
  exact j2.2.2.1 b this ⟨.nil, by simpa using Ne.symm hbx⟩

theorem isChain_support {g : GraphI} (hg : g.Lawful) {u v : Nat} (w : g.simple.Walk u v) : w.support.IsChain g.Adj :=
  w.isChain_adj_support.imp (fun _ _ h => ((hg.simple_adj).1 h).2)

/-- Where `Loses` holds, some order of the neighbors makes the traversal miss the node. -/
theorem Loses.path {g : GraphI} (hg : g.Lawful) {root b : Nat} (h : DepthFirst.Loses g root b) :
    g.simple.Reachable root b ∧ ∃ P : List Nat, P.Nodup ∧ P.IsChain g.Adj ∧
      ∀ h, Steers g h P → ∃ st, DepthFirst.Run h root st ∧ b ∉ discovered root st := by
  rcases h with ⟨a, z, hn, hadj, ⟨w, hw⟩, hab⟩ | ⟨x, p, a, z, hx, ⟨hn, hadj, w, w', hw, hw', -, hdis⟩, hab, hrb⟩
  · have hn' := hn
    simp only [List.nodup_cons, List.mem_cons, List.not_mem_nil, or_false, not_or, not_false_eq_true, List.nodup_nil,
      and_true] at hn'
    have hra := hadj a (by simp)
    have hrz := hadj z (by simp)
    have hrb := hadj b (by simp)
    have hsub : ∀ y ∈ w.bypass.support, y ∈ w.support := fun y hy => w.support_bypass_subset hy
    have hne : w.bypass.support ≠ [] := SimpleGraph.Walk.support_ne_nil _
    have hnd : (root :: w.bypass.support).Nodup :=
      List.nodup_cons.2 ⟨fun hc => hw (hsub _ hc), w.bypass_isPath.support_nodup⟩
    have hch : (root :: w.bypass.support).IsChain g.Adj := by
      have := isChain_support hg (SimpleGraph.Walk.cons hra w.bypass)
      simpa using this
    refine ⟨hrb.reachable, _, hnd, hch, fun h hS => DepthFirst.miss hg (x := root) (z := z) hnd hch hS rfl ?_ (by simp) hrz.ne ?_
      ((hg.simple_adj).1 hrz.symm).2 ?_ hrb.ne'⟩
    · rw [List.getLast?_cons_of_ne_nil hne, List.getLast?_eq_getLast hne, SimpleGraph.Walk.getLast_support]
    · -- the last but one is not the root
      have hz2 : w.bypass.support.dropLast ≠ [] := by
        intro hc
        have hlen : w.bypass.support.length ≤ 1 := by
          have := congrArg List.length hc
          simp at this
          simp [this]
        have : w.bypass.length = 0 := by
          have := SimpleGraph.Walk.length_support w.bypass
          omega
        exact hn'.1.1 (SimpleGraph.Walk.eq_of_length_eq_zero this)
      rw [List.dropLast_cons_of_ne_nil hne, List.getLast?_cons_of_ne_nil hz2]
      intro hc
      have := List.mem_of_getLast? hc
      exact hw (hsub _ (List.mem_of_mem_dropLast this))
    · rintro y hy ⟨q, hq⟩
      rcases List.mem_cons.1 hy with rfl | hy
      · exact hq q.end_mem_support
      · apply hab
        refine ⟨(w.takeUntil y (hsub _ hy)).append q.reverse, ?_⟩
        rw [SimpleGraph.Walk.mem_support_append_iff, not_or, SimpleGraph.Walk.support_reverse, List.mem_reverse]
        exact ⟨fun hc => hw (w.support_takeUntil_subset _ hc), hq⟩
  · have hn' := hn
    simp only [List.nodup_cons, List.mem_cons, List.not_mem_nil, or_false, not_or, not_false_eq_true, List.nodup_nil,
      and_true] at hn'
    have hxp := hadj p (by simp)
    have hxa := hadj a (by simp)
    have hxz := hadj z (by simp)
    have hxb := hadj b (by simp)
    have hsub : ∀ y ∈ w.bypass.support, y ∈ w.support := fun y hy => w.support_bypass_subset hy
    have hsub' : ∀ y ∈ w'.bypass.support, y ∈ w'.support := fun y hy => w'.support_bypass_subset hy
    have hne : w'.bypass.support ≠ [] := SimpleGraph.Walk.support_ne_nil _
    have hnd : (w.bypass.support ++ x :: w'.bypass.support).Nodup := by
      rw [List.nodup_append]
      refine ⟨w.bypass_isPath.support_nodup, List.nodup_cons.2 ⟨fun hc => hw' (hsub' _ hc), w'.bypass_isPath.support_nodup⟩, ?_⟩
      intro c hc e he
      rcases List.mem_cons.1 he with rfl | he
      · rintro rfl; exact hw (hsub _ hc)
      · rintro rfl; exact hdis (hsub _ hc) (hsub' _ he)
    have hch : (w.bypass.support ++ x :: w'.bypass.support).IsChain g.Adj := by
      have := isChain_support hg (w.bypass.append (SimpleGraph.Walk.cons hxp.symm (SimpleGraph.Walk.cons hxa w'.bypass)))
      rw [SimpleGraph.Walk.support_append] at this
      simpa using this
    refine ⟨w.reachable.trans (hxp.symm.reachable.trans hxb.reachable), _, hnd, hch, fun h hS =>
      DepthFirst.miss hg (x := x) (z := z) hnd hch hS ?_ ?_ (by simp) hxz.ne ?_ ((hg.simple_adj).1 hxz.symm).2 ?_ hxb.ne'⟩
    · rw [List.head?_append_of_ne_nil _ (SimpleGraph.Walk.support_ne_nil _), List.head?_eq_some_head (SimpleGraph.Walk.support_ne_nil _),
        SimpleGraph.Walk.head_support]
    · rw [List.getLast?_append_of_ne_nil _ (by simp), List.getLast?_cons_of_ne_nil hne, List.getLast?_eq_getLast hne,
        SimpleGraph.Walk.getLast_support]
    · have hz2 : w'.bypass.support.dropLast ≠ [] := by
        intro hc
        have hlen : w'.bypass.support.length ≤ 1 := by
          have := congrArg List.length hc
          simp at this
          simp [this]
        have : w'.bypass.length = 0 := by
          have := SimpleGraph.Walk.length_support w'.bypass
          omega
        exact hn'.2.1.1 (SimpleGraph.Walk.eq_of_length_eq_zero this)
      rw [List.dropLast_append_of_ne_nil (by simp), List.dropLast_cons_of_ne_nil hne, List.getLast?_append_of_ne_nil _ (by simp),
        List.getLast?_cons_of_ne_nil hz2]
      intro hc
      have := List.mem_of_getLast? hc
      exact hw' (hsub' _ (List.mem_of_mem_dropLast this))
    · rintro y hy ⟨q, hq⟩
      rcases List.mem_append.1 hy with hy | hy
      · apply hrb
        refine ⟨(w.takeUntil y (hsub _ hy)).append q.reverse, ?_⟩
        rw [SimpleGraph.Walk.mem_support_append_iff, not_or, SimpleGraph.Walk.support_reverse, List.mem_reverse]
        exact ⟨fun hc => hw (w.support_takeUntil_subset _ hc), hq⟩
      · rcases List.mem_cons.1 hy with rfl | hy
        · exact hq q.end_mem_support
        · apply hab
          refine ⟨(w'.takeUntil y (hsub' _ hy)).append q.reverse, ?_⟩
          rw [SimpleGraph.Walk.mem_support_append_iff, not_or, SimpleGraph.Walk.support_reverse, List.mem_reverse]
          exact ⟨fun hc => hw' (w'.support_takeUntil_subset _ hc), hq⟩

end DepthFirst
end Gamma
