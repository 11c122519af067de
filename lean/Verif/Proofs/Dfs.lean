import Verif.Proofs.BfsProps
/-
Depth-first traversal: invariant.
-/
namespace Gamma
namespace DepthFirst
variable {g : GraphI}

/-! ### One round of pushes -/

/-- The stack after the loop over the neighbors. -/
def pushAll (visited : List Nat) (p n : Nat) (ns : List Nat) (rest : List (Nat × Nat)) : List (Nat × Nat) :=
  ns.foldr (fun x st => pushNeighbor visited p n st x) rest

theorem foldl_reverse_push (visited : List Nat) (p n : Nat) (ns : List Nat) (rest : List (Nat × Nat)) :
    ns.reverse.foldl (pushNeighbor visited p n) rest = pushAll visited p n ns rest := by
  rw [List.foldl_reverse]; rfl

theorem pushAll_cons (visited : List Nat) (p n a : Nat) (ns : List Nat) (rest : List (Nat × Nat)) :
    pushAll visited p n (a :: ns) rest = pushNeighbor visited p n (pushAll visited p n ns rest) a := rfl

theorem pushAll_sublist (visited : List Nat) (p n : Nat) (ns : List Nat) (rest : List (Nat × Nat)) :
    (pushAll visited p n ns rest).Sublist ((ns.filter (fun x => x != p)).map (fun x => (n, x)) ++ rest) := by
  induction ns with
  | nil => exact List.Sublist.refl _
  | cons a ns ih =>
    rw [pushAll_cons]
    unfold pushNeighbor
    by_cases h : a = p
    · simpa [h] using ih
    · simp only [beq_iff_eq, h, if_false]
      have : (a != p) = true := by simpa using h
      rw [List.filter_cons, this]
      simp only [if_true, List.map_cons, List.cons_append]
      refine List.Sublist.cons_cons _ ?_
      split
      · exact List.filter_sublist.trans ih
      · exact ih

theorem mem_pushAll_or {visited : List Nat} {p n : Nat} {ns : List Nat} {rest : List (Nat × Nat)}
    {e : Nat × Nat} (he : e ∈ rest) : e ∈ pushAll visited p n ns rest ∨
      ∃ w ∈ ns, w ≠ p ∧ w ∈ visited ∧ (e.1 = w ∨ e.2 = n) := by
  induction ns with
  | nil => left; exact he
  | cons a ns ih =>
    rcases ih with ih | ⟨w, h1, h2⟩
    · rw [pushAll_cons]
      unfold pushNeighbor
      by_cases h : a = p
      · left; simpa [h] using ih
      · simp only [beq_iff_eq, h, if_false]
        by_cases hv : a ∈ visited
        · by_cases hk : e.1 = a ∨ e.2 = n
          · right; exact ⟨a, by simp, h, hv, hk⟩
          · left
            push Not at hk
            simp [hv, ih, hk]
        · left; simp [hv, ih]
    · right; exact ⟨w, by simp [h1], h2⟩

theorem mem_pushAll_new {visited : List Nat} {p n : Nat} (hn : n ∉ visited) {ns : List Nat} {rest : List (Nat × Nat)}
    {w : Nat} (hw : w ∈ ns) (hp : w ≠ p) (hwn : w ≠ n) : (n, w) ∈ pushAll visited p n ns rest := by
  induction ns with
  | nil => simp at hw
  | cons a ns ih =>
    rw [pushAll_cons]
    unfold pushNeighbor
    by_cases ha : w = a
    · subst ha; simp [hp]
    · have ih := ih (by simpa [ha] using hw)
      by_cases h : a = p
      · simpa [h] using ih
      · simp only [beq_iff_eq, h, if_false]
        by_cases hv : a ∈ visited
        · have : n ≠ a := by rintro rfl; exact hn hv
          simp [hv, ih, this, hwn]
        · simp [hv, ih]

/-- Surviving old entries are not at a visited neighbor (other than the parent) and, if there is one, not towards
the new node. -/
theorem pushAll_kept {visited : List Nat} {p n : Nat} {ns : List Nat} {rest : List (Nat × Nat)}
    {e : Nat × Nat} (he : e ∈ pushAll visited p n ns rest) (hen : e.1 ≠ n) {w : Nat} (hw : w ∈ ns)
    (hp : w ≠ p) (hv : w ∈ visited) : e.1 ≠ w ∧ e.2 ≠ n := by
  induction ns with
  | nil => simp at hw
  | cons a ns ih =>
    rw [pushAll_cons] at he
    unfold pushNeighbor at he
    by_cases h : a = p
    · have hwa : w ≠ a := by rw [h]; exact hp
      simp only [h, beq_self_eq_true, if_true] at he
      exact ih he (by simpa [hwa] using hw)
    · simp only [beq_iff_eq, h, if_false, List.mem_cons] at he
      rcases he with he | he
      · exact absurd (by rw [he]) hen
      · by_cases ha : w = a
        · subst ha
          simp [hv] at he
          exact he.2
        · have hw' : w ∈ ns := by simpa [ha] using hw
          split at he
          · exact ih (List.mem_of_mem_filter he) hw'
          · exact ih he hw'

theorem pushAll_mem {visited : List Nat} {p n : Nat} {ns : List Nat} {rest : List (Nat × Nat)}
    {e : Nat × Nat} (he : e ∈ pushAll visited p n ns rest) :
    (e.1 = n ∧ e.2 ∈ ns ∧ e.2 ≠ p) ∨ e ∈ rest := by
  have := (pushAll_sublist visited p n ns rest).subset he
  rw [List.mem_append, List.mem_map] at this
  rcases this with ⟨x, hx, rfl⟩ | h
  · left
    rw [List.mem_filter] at hx
    exact ⟨rfl, hx.1, by simpa using hx.2⟩
  · right; exact h

/-! ### The invariant -/

/-- Occurrences of an edge, in either direction. -/
def jc (u v : Nat) (l : List (Nat × Nat)) : Nat := l.count (u, v) + l.count (v, u)

theorem jc_append (u v : Nat) (l l' : List (Nat × Nat)) : jc u v (l ++ l') = jc u v l + jc u v l' := by
  simp only [jc, List.count_append]; omega

theorem jc_sublist {u v : Nat} {l l' : List (Nat × Nat)} (h : l.Sublist l') : jc u v l ≤ jc u v l' := by
  unfold jc
  have := h.count_le (u, v)
  have := h.count_le (v, u)
  omega

theorem jc_pos {u v : Nat} {l : List (Nat × Nat)} (h : (u, v) ∈ l ∨ (v, u) ∈ l) : 1 ≤ jc u v l := by
  unfold jc
  rcases h with h | h
  · have := List.count_pos_iff.2 h; omega
  · have := List.count_pos_iff.2 h; omega

theorem jc_zero {u v : Nat} {l : List (Nat × Nat)} (h : (u, v) ∉ l) (h' : (v, u) ∉ l) : jc u v l = 0 := by
  unfold jc; rw [List.count_eq_zero.2 h, List.count_eq_zero.2 h']

theorem jc_comm (u v : Nat) (l : List (Nat × Nat)) : jc u v l = jc v u l := by unfold jc; omega


/-- The source of every step is an ancestor of the node discovered last. -/
def Backtracks (root : Nat) (st : List Step) : Prop :=
  ∀ pre s post, st = pre ++ s :: post → ∀ x, (discovered root pre).getLast? = some x → Ancestor pre s.sid x

structure Inv (g : GraphI) (root : Nat) (st : List Step) (d : DepthFirst) : Prop where
  nodes : d.nodes = (discovered root st).reverse
  truth : Truthful root st
  step_adj : ∀ s ∈ st, g.Adj s.sid s.tid
  stack_mem : ∀ e ∈ d.stack, e.1 ∈ discovered root st ∧ g.Adj e.1 e.2
  once : ∀ u v, u ≠ v → jc u v (st.map Step.pair) + jc u v d.stack ≤ 1
  onceLoop : ∀ v, (g.nbr v).count v ≤ 1 → (st.map Step.pair).count (v, v) + d.stack.count (v, v) ≤ 1
  cover : ∀ u ∈ discovered root st, ∀ v, g.Adj u v → v ∈ discovered root st ∨ (u, v) ∈ d.stack ∨
    ∃ n ∈ discovered root st, n ≠ u ∧ g.Adj u n ∧ NonTree st u n
  rootOut : ∀ v, (root, v) ∈ d.stack → v ∈ discovered root st → v = root
  edge : ∀ u ∈ discovered root st, ∀ v ∈ discovered root st, u ≠ v → g.Adj u v →
    1 ≤ jc u v (st.map Step.pair) ∨ (u, v) ∈ d.stack ∨ (v, u) ∈ d.stack ∨ Deg3 g u ∨ Deg3 g v
  chain : d.stack.Pairwise (fun e f => Ancestor st f.1 e.1)
  top : ∀ x, (discovered root st).getLast? = some x → ∀ e ∈ d.stack, Ancestor st e.1 x
  back : Backtracks root st

theorem Ancestor.mono {st : List Step} {s : Step} {u v : Nat} (h : Ancestor st u v) :
    Ancestor (st ++ [s]) u v :=
  h.lift id (fun _ _ ⟨x, hx, hr⟩ => ⟨x, by simp [hx], hr⟩)

theorem backtracks_snoc {root : Nat} {st : List Step} {s : Step} (h : Backtracks root st)
    (h1 : ∀ x, (discovered root st).getLast? = some x → Ancestor st s.sid x) :
    Backtracks root (st ++ [s]) := by
  intro pre x post he
  rcases List.eq_nil_or_concat post with rfl | ⟨post', y, rfl⟩
  · have := List.append_inj' he (by simp)
    obtain ⟨rfl, e2⟩ := this
    simp at e2; subst e2; exact h1
  · have e : pre ++ x :: (post' ++ [y]) = (pre ++ x :: post') ++ [y] := by simp
    rw [List.concat_eq_append, e] at he
    have := List.append_inj' he (by simp)
    exact h pre x post' this.1

/-- The measure of a state. -/
def measure (g : GraphI) (b : DepthFirst) : Nat := b.stack.length + pendingDegree g b.nodes

theorem new_eq (hg : g.Lawful) {root : Nat} (hr : root ∈ g.nodes) :
    DepthFirst.new g root = .ok { nodes := [root], stack := (g.nbr root).map (fun n => (root, n)) } := by
  simp [DepthFirst.new, hg.neighbors_eq hr]

theorem inv_new (hg : g.Lawful) (root : Nat) :
    Inv g root [] { nodes := [root], stack := (g.nbr root).map (fun n => (root, n)) } where
  nodes := by simp [discovered]
  truth := by intro pre s post h; simp at h
  step_adj := by simp
  stack_mem := by
    intro e he
    simp only [List.mem_map] at he
    obtain ⟨x, hx, rfl⟩ := he
    exact ⟨by simp [discovered], GraphI.mem_nbr.1 hx⟩
  once := by
    intro u v hne
    simp only [List.map_nil, jc, List.count_nil, BreadthFirst.count_map_pair]
    by_cases h1 : root = u
    · subst h1
      by_cases ha : g.Adj root v
      · simp [hg.nbr_count hne ha, hne]
      · rw [List.count_eq_zero.2 (by rw [GraphI.mem_nbr]; exact ha)]; simp [hne]
    · by_cases h2 : root = v
      · subst h2
        by_cases ha : g.Adj root u
        · simp [hg.nbr_count (Ne.symm hne) ha, h1]
        · rw [List.count_eq_zero (l := g.nbr root) (a := u) |>.2 (by rw [GraphI.mem_nbr]; exact ha)]; simp [h1]
      · simp [h1, h2]
  onceLoop := by
    intro v hv
    simp only [List.map_nil, List.count_nil, BreadthFirst.count_map_pair]
    split
    · rename_i e; subst e; omega
    · omega
  cover := by
    intro u hu v ha
    simp [discovered] at hu; subst hu
    right; left
    simp [GraphI.mem_nbr, ha]
  rootOut := by intro v _ hv; simpa [discovered] using hv
  edge := by
    intro u hu v hv hne
    simp [discovered] at hu hv
    exact absurd (hu.trans hv.symm) hne
  chain := by
    rw [List.pairwise_map]
    simp only [List.pairwise_iff_forall_sublist]
    intro _ _ _; exact Relation.ReflTransGen.refl
  top := by
    intro x hx e he
    simp [discovered] at hx; subst hx
    simp only [List.mem_map] at he
    obtain ⟨y, -, rfl⟩ := he
    exact Relation.ReflTransGen.refl
  back := by intro pre s post h; simp at h

theorem Inv.next_cut {root : Nat} {st : List Step} {d : DepthFirst}
    (h : Inv g root st d) {p n : Nat} {rest : List (Nat × Nat)} (hq : d.stack = (p, n) :: rest)
    (hv : n ∈ discovered root st) : Inv g root (st ++ [⟨p, n, true⟩]) { d with stack := rest } := by
  have hd : discovered root (st ++ [⟨p, n, true⟩]) = discovered root st := discovered_cut _ _ _ rfl
  obtain ⟨hp, ha⟩ := h.stack_mem (p, n) (by rw [hq]; simp)
  simp only at hp ha
  have hNT : ∀ u x, NonTree st u x → NonTree (st ++ [⟨p, n, true⟩]) u x := by
    intro u x hx s hs hc
    rw [List.mem_append] at hs
    rcases hs with hs | hs
    · exact hx s hs hc
    · simp at hs; subst hs; simp at hc
  constructor
  · rw [hd]; exact h.nodes
  · exact truthful_snoc h.truth hp (by simp; exact hv)
  · intro s hs
    rw [List.mem_append] at hs
    rcases hs with hs | hs
    · exact h.step_adj s hs
    · simp at hs; subst hs; exact ha
  · rw [hd]; intro e he; exact h.stack_mem e (by rw [hq]; simp at he; simp [he])
  · intro u v hne
    have := h.once u v hne
    rw [hq] at this
    have e : ((p, n) :: rest : List (Nat × Nat)) = [(p, n)] ++ rest := rfl
    rw [e, jc_append] at this
    rw [List.map_append, jc_append]
    simp only [List.map_cons, List.map_nil, Step.pair]
    omega
  · intro v hl
    have := h.onceLoop v hl
    rw [hq] at this
    have e : ((p, n) :: rest : List (Nat × Nat)) = [(p, n)] ++ rest := rfl
    rw [e, List.count_append] at this
    rw [List.map_append, List.count_append]
    simp only [List.map_cons, List.map_nil, Step.pair]
    omega
  · rw [hd]
    intro u hu v hav
    rcases h.cover u hu v hav with h1 | h1 | ⟨x, h1, h2, h3, h4⟩
    · exact .inl h1
    · rw [hq] at h1
      rcases List.mem_cons.1 h1 with h1 | h1
      · left; simp at h1; rw [h1.2]; exact hv
      · exact .inr (.inl h1)
    · exact .inr (.inr ⟨x, h1, h2, h3, hNT _ _ h4⟩)
  · rw [hd]; intro v hv1 hv2; exact h.rootOut v (by rw [hq]; simp at hv1; simp [hv1]) hv2
  · rw [hd]
    intro u hu v hv' hne hav
    rw [List.map_append, jc_append]
    rcases h.edge u hu v hv' hne hav with h1 | h1 | h1 | h1
    · left; omega
    · rw [hq] at h1
      rcases List.mem_cons.1 h1 with h1 | h1
      · left
        have : 1 ≤ jc u v ([⟨p, n, true⟩].map Step.pair) := jc_pos (.inl (by simp [Step.pair]; simpa using h1))
        omega
      · exact .inr (.inl h1)
    · rw [hq] at h1
      rcases List.mem_cons.1 h1 with h1 | h1
      · left
        have : 1 ≤ jc u v ([⟨p, n, true⟩].map Step.pair) := jc_pos (.inr (by simp [Step.pair]; simpa using h1))
        omega
      · exact .inr (.inr (.inl h1))
    · exact .inr (.inr (.inr h1))
  · have := h.chain
    rw [hq] at this
    exact (List.pairwise_cons.1 this).2.imp (fun hx => Ancestor.mono hx)
  · rw [hd]; intro x hx e he
    exact Ancestor.mono (h.top x hx e (by rw [hq]; simp at he; simp [he]))
  · refine backtracks_snoc h.back ?_
    intro x hx
    exact h.top x hx (p, n) (by rw [hq]; simp)

theorem Inv.next_new (hg : g.Lawful) {root : Nat} {st : List Step} {d : DepthFirst}
    (h : Inv g root st d) {p n : Nat} {rest : List (Nat × Nat)} (hq : d.stack = (p, n) :: rest)
    (hv : n ∉ discovered root st) : Inv g root (st ++ [⟨p, n, false⟩])
      { nodes := n :: d.nodes, stack := pushAll d.nodes p n (g.nbr n) rest } := by
  have hd : discovered root (st ++ [⟨p, n, false⟩]) = discovered root st ++ [n] := discovered_new _ _ _ rfl
  obtain ⟨hp, ha⟩ := h.stack_mem (p, n) (by rw [hq]; simp)
  simp only at hp ha
  have hmem : ∀ x, x ∈ d.nodes ↔ x ∈ discovered root st := by
    intro x; rw [h.nodes, List.mem_reverse]
  have hvn : n ∉ d.nodes := by rw [hmem]; exact hv
  have hpn : p ≠ n := by rintro rfl; exact hv hp
  have hrest : ∀ e ∈ rest, e.1 ∈ discovered root st ∧ g.Adj e.1 e.2 := by
    intro e he; exact h.stack_mem e (by rw [hq]; simp [he])
  have hrn : ∀ e ∈ rest, e.1 ≠ n := by
    intro e he hc; exact hv (hc ▸ (hrest e he).1)
  have hroot : root ∈ discovered root st := by simp [discovered]
  have hrootn : root ≠ n := by rintro rfl; exact hv hroot
  have hstn : ∀ s ∈ st, s.sid ≠ n ∧ s.tid ≠ n := by
    intro s hs
    exact ⟨fun hc => hv (hc ▸ h.truth.sid_mem hs), fun hc => hv (hc ▸ h.truth.tid_mem hs)⟩
  have hpairs : ∀ x, (n, x) ∉ st.map Step.pair ∧ (x, n) ∉ st.map Step.pair := by
    intro x
    constructor
    · intro hc
      obtain ⟨s, hs, he⟩ := List.mem_map.1 hc
      exact (hstn s hs).1 (congrArg Prod.fst he)
    · intro hc
      obtain ⟨s, hs, he⟩ := List.mem_map.1 hc
      exact (hstn s hs).2 (congrArg Prod.snd he)
  -- entries of the new stack
  have hold : ∀ e ∈ rest, e ∈ pushAll d.nodes p n (g.nbr n) rest ∨
      (e.1 ≠ p ∧ e.1 ∈ discovered root st ∧ g.Adj n e.1) ∨ e.2 = n := by
    intro e he
    rcases mem_pushAll_or (visited := d.nodes) (p := p) (n := n) (ns := g.nbr n) he with h1 | ⟨w, h1, h2, h3, h4⟩
    · exact .inl h1
    · rcases h4 with h4 | h4
      · subst h4; exact .inr (.inl ⟨h2, (hmem _).1 h3, GraphI.mem_nbr.1 h1⟩)
      · exact .inr (.inr h4)
  have honce := h.once
  rw [hq] at honce
  have e0 : ((p, n) :: rest : List (Nat × Nat)) = [(p, n)] ++ rest := rfl
  simp only [e0, jc_append] at honce
  -- once for edges at n
  have once_n : ∀ x, x ≠ n → jc n x ((st ++ [(⟨p, n, false⟩ : Step)]).map Step.pair) +
      jc n x (pushAll d.nodes p n (g.nbr n) rest) ≤ 1 := by
    intro x hx
    have hst0 : jc n x (st.map Step.pair) = 0 := jc_zero (hpairs x).1 (hpairs x).2
    have hnbr : (g.nbr n).count x ≤ 1 := by
      by_cases hax : g.Adj n x
      · rw [hg.nbr_count (Ne.symm hx) hax]
      · rw [List.count_eq_zero.2 (by rw [GraphI.mem_nbr]; exact hax)]; omega
    rw [List.map_append, jc_append, hst0]
    simp only [List.map_cons, List.map_nil, Step.pair]
    have hsub := jc_sublist (u := n) (v := x) (pushAll_sublist d.nodes p n (g.nbr n) rest)
    rw [jc_append] at hsub
    have hnew : jc n x (((g.nbr n).filter (fun y => y != p)).map (fun y => (n, y))) =
        if x = p then 0 else (g.nbr n).count x := by
      unfold jc
      rw [BreadthFirst.count_map_pair, BreadthFirst.count_map_pair]
      simp only [if_true, Ne.symm hx, if_false, Nat.add_zero]
      by_cases hxp : x = p
      · subst hxp; rw [List.count_eq_zero.2 (by simp)]; simp
      · rw [List.count_filter (by simpa using hxp)]; simp [hxp]
    by_cases hxp : x = p
    · subst hxp
      have := honce n x (Ne.symm hx)
      have h1 : 1 ≤ jc n x [(x, n)] := jc_pos (.inr (by simp))
      have h2 : jc n x [(x, n)] = 1 := by
        simp [jc, hx]
      rw [hnew] at hsub
      simp only [if_true] at hsub
      omega
    · have h1 : jc n x [(p, n)] = 0 := by
        apply jc_zero
        · simp; exact fun hc => absurd hc (Ne.symm hpn)
        · simp; exact fun hc => hxp hc
      by_cases hxd : x ∈ discovered root st ∧ g.Adj n x
      · -- no entry (x, n) survives
        have h2 : (pushAll d.nodes p n (g.nbr n) rest).count (x, n) = 0 := by
          rw [List.count_eq_zero]
          intro hc
          exact (pushAll_kept hc hx (GraphI.mem_nbr.2 hxd.2) hxp ((hmem x).2 hxd.1)).1 rfl
        have h3 := (pushAll_sublist d.nodes p n (g.nbr n) rest).count_le (n, x)
        rw [List.count_append, BreadthFirst.count_map_pair] at h3
        simp only [if_true] at h3
        rw [List.count_filter (by simpa using hxp)] at h3
        have h4 : rest.count (n, x) = 0 := by
          rw [List.count_eq_zero]; intro hc; exact hrn _ hc rfl
        unfold jc at h1 ⊢
        omega
      · have h2 : jc n x rest = 0 := by
          apply jc_zero
          · intro hc; exact hrn _ hc rfl
          · intro hc
            have := hrest _ hc
            exact hxd ⟨this.1, hg.adj_symm _ _ this.2⟩
        rw [hnew] at hsub
        simp only [hxp, if_false] at hsub
        omega
  constructor
  · rw [hd, h.nodes]; simp
  · exact truthful_snoc h.truth hp (by simp; exact hv)
  · intro s hs
    rw [List.mem_append] at hs
    rcases hs with hs | hs
    · exact h.step_adj s hs
    · simp at hs; subst hs; exact ha
  · rw [hd]
    intro e he
    rcases pushAll_mem he with ⟨h1, h2, -⟩ | h1
    · rw [h1]; exact ⟨by simp, GraphI.mem_nbr.1 h2⟩
    · exact ⟨List.mem_append_left _ (hrest e h1).1, (hrest e h1).2⟩
  · intro u v hne
    by_cases hun : u = n
    · subst hun; exact once_n v (Ne.symm hne)
    · by_cases hvn' : v = n
      · subst hvn'
        have := once_n u hne
        rw [jc_comm u v, jc_comm u v]; exact this
      · have := honce u v hne
        have hsub := jc_sublist (u := u) (v := v) (pushAll_sublist d.nodes p n (g.nbr n) rest)
        rw [jc_append] at hsub
        have hz : jc u v (((g.nbr n).filter (fun y => y != p)).map (fun y => (n, y))) = 0 := by
          unfold jc
          rw [BreadthFirst.count_map_pair, BreadthFirst.count_map_pair]; simp [Ne.symm hun, Ne.symm hvn']
        rw [List.map_append, jc_append]
        simp only [List.map_cons, List.map_nil, Step.pair]
        omega
  · intro v hl
    have h1 := h.onceLoop v hl
    rw [hq] at h1
    rw [e0, List.count_append] at h1
    rw [List.map_append, List.count_append]
    simp only [List.map_cons, List.map_nil, Step.pair]
    have hsub := (pushAll_sublist d.nodes p n (g.nbr n) rest).count_le (v, v)
    rw [List.count_append, BreadthFirst.count_map_pair] at hsub
    by_cases hvn' : v = n
    · subst hvn'
      simp only [if_true] at hsub
      have h2 : (List.filter (fun x => x != p) (g.nbr v)).count v ≤ (g.nbr v).count v :=
        List.filter_sublist.count_le _
      have h3 : rest.count (v, v) = 0 := by
        rw [List.count_eq_zero]; intro hc; exact hrn _ hc rfl
      have h4 : (st.map Step.pair).count (v, v) = 0 := List.count_eq_zero.2 (hpairs v).1
      have h5 : [(p, v)].count (v, v) = 0 := by
        rw [List.count_eq_zero]; simp; exact fun hc => hpn hc.symm
      omega
    · simp only [Ne.symm hvn', if_false] at hsub
      omega
  · rw [hd]
    intro u hu v hav
    rw [List.mem_append] at hu
    rcases hu with hu | hu
    · have hun : u ≠ n := by rintro rfl; exact hv hu
      rcases h.cover u hu v hav with h1 | h1 | ⟨x, h1, h2, h3, h4⟩
      · left; exact List.mem_append_left _ h1
      · rw [hq] at h1
        rcases List.mem_cons.1 h1 with h1 | h1
        · simp at h1; left; rw [h1.2]; simp
        · rcases hold _ h1 with h2 | ⟨h2, h3, h4⟩ | h2
          · exact .inr (.inl h2)
          · right; right
            refine ⟨n, by simp, Ne.symm hun, hg.adj_symm _ _ h4, ?_⟩
            intro s hs hc
            rw [List.mem_append] at hs
            rcases hs with hs | hs
            · have := hstn s hs
              rintro (⟨-, e⟩ | ⟨e, -⟩)
              · exact this.2 e
              · exact this.1 e
            · simp at hs; subst hs
              rintro (⟨e, -⟩ | ⟨e, -⟩)
              · exact h2 e.symm
              · exact hpn e
          · left; simp at h2; rw [h2]; simp
      · right; right
        refine ⟨x, List.mem_append_left _ h1, h2, h3, ?_⟩
        have hxn : x ≠ n := by rintro rfl; exact hv h1
        intro s hs hc
        rw [List.mem_append] at hs
        rcases hs with hs | hs
        · exact h4 s hs hc
        · simp at hs; subst hs
          rintro (⟨-, e⟩ | ⟨-, e⟩)
          · exact hxn e.symm
          · exact hun e.symm
    · simp at hu; subst hu
      by_cases hvd : v ∈ discovered root st
      · left; exact List.mem_append_left _ hvd
      · by_cases hvu : v = u
        · left; simp [hvu]
        · right; left
          have hvp : v ≠ p := by rintro rfl; exact hvd hp
          exact mem_pushAll_new hvn (GraphI.mem_nbr.2 hav) hvp hvu
  · rw [hd]
    intro v hv1 hv2
    rcases pushAll_mem hv1 with ⟨h1, -⟩ | h1
    · exact absurd h1 hrootn
    · rw [List.mem_append] at hv2
      rcases hv2 with hv2 | hv2
      · exact h.rootOut v (by rw [hq]; simp [h1]) hv2
      · exfalso
        simp at hv2; subst hv2
        by_cases hpr : p = root
        · subst hpr
          have := honce p v hpn
          have h2 : 1 ≤ jc p v [(p, v)] := jc_pos (.inl (by simp))
          have h3 : 1 ≤ jc p v rest := jc_pos (.inl h1)
          omega
        · have hadj := (hrest _ h1).2
          exact (pushAll_kept hv1 hrootn (GraphI.mem_nbr.2 (hg.adj_symm _ _ hadj)) (Ne.symm hpr) ((hmem root).2 hroot)).1 rfl
  · rw [hd]
    -- the key case: an entry between two old nodes that is dropped
    have hdrop : ∀ u v, u ∈ discovered root st → v ∈ discovered root st → u ≠ v → (u, v) ∈ d.stack →
        (u, v) ∈ pushAll d.nodes p n (g.nbr n) rest ∨ Deg3 g u := by
      intro u v hu hv' hne hs
      have hs0 := hs
      rw [hq] at hs
      rcases List.mem_cons.1 hs with h1 | h1
      · simp at h1; exact absurd (h1.2 ▸ hv') hv
      · rcases hold _ h1 with h2 | ⟨-, -, h4⟩ | h2
        · exact .inl h2
        · right
          simp only at h4
          have hun : u ≠ n := by rintro rfl; exact hv hu
          have hvn' : v ≠ n := by rintro rfl; exact hv hv'
          rcases mem_discovered.1 hu with hr | ⟨s, hs1, hs2, hs3⟩
          · subst hr; exact absurd (h.rootOut v hs0 hv').symm hne
          · -- parent s.sid of u
            have hsid : s.sid ≠ u := by
              obtain ⟨pre, post, hsp⟩ := List.append_of_mem hs1
              have := h.truth pre s post hsp
              intro e
              rw [← hs3] at e
              have := this.2.2 (e ▸ this.1)
              rw [hs2] at this; simp at this
            have hsv : s.sid ≠ v := by
              intro e
              have h5 := h.once u v hne
              have h6 : 1 ≤ jc u v (st.map Step.pair) :=
                jc_pos (.inr (List.mem_map.2 ⟨s, hs1, by simp [Step.pair, e, hs3]⟩))
              have h7 : 1 ≤ jc u v d.stack := jc_pos (.inl hs0)
              omega
            have hsn : s.sid ≠ n := (hstn s hs1).1
            refine ⟨s.sid, v, n, hsv, hsn, hvn', ?_, ?_, ?_⟩
            · rw [hg.simple_adj]
              have := h.step_adj s hs1
              rw [hs3] at this
              exact ⟨Ne.symm hsid, hg.adj_symm _ _ this⟩
            · rw [hg.simple_adj]; exact ⟨hne, (h.stack_mem _ hs0).2⟩
            · rw [hg.simple_adj]; exact ⟨hun, hg.adj_symm _ _ h4⟩
        · simp at h2; exact absurd (h2 ▸ hv') hv
    -- edges at the new node
    have hnew : ∀ v, v ∈ discovered root st → g.Adj n v →
        1 ≤ jc n v ((st ++ [(⟨p, n, false⟩ : Step)]).map Step.pair) ∨ (n, v) ∈ pushAll d.nodes p n (g.nbr n) rest := by
      intro v hv' hav
      have hvn' : v ≠ n := by rintro rfl; exact hv hv'
      by_cases hvp : v = p
      · subst hvp
        left
        exact jc_pos (.inr (by simp [Step.pair]))
      · right; exact mem_pushAll_new hvn (GraphI.mem_nbr.2 hav) hvp hvn'
    intro u hu v hv' hne hav
    rw [List.mem_append] at hu hv'
    rcases hu with hu | hu
    · rcases hv' with hv' | hv'
      · rcases h.edge u hu v hv' hne hav with h1 | h1 | h1 | h1
        · left; rw [List.map_append, jc_append]; omega
        · rcases hdrop u v hu hv' hne h1 with h2 | h2
          · exact .inr (.inl h2)
          · exact .inr (.inr (.inr (.inl h2)))
        · rcases hdrop v u hv' hu (Ne.symm hne) h1 with h2 | h2
          · exact .inr (.inr (.inl h2))
          · exact .inr (.inr (.inr (.inr h2)))
        · exact .inr (.inr (.inr h1))
      · simp at hv'; subst hv'
        rcases hnew u hu (hg.adj_symm _ _ hav) with h1 | h1
        · left; rw [jc_comm]; exact h1
        · exact .inr (.inr (.inl h1))
    · simp at hu; subst hu
      have hv'' : v ∈ discovered root st := by
        rcases hv' with h1 | h1
        · exact h1
        · simp at h1; exact absurd h1.symm hne
      rcases hnew v hv'' hav with h1 | h1
      · exact .inl h1
      · exact .inr (.inl h1)
  · have hc := h.chain
    rw [hq] at hc
    have hc1 := (List.pairwise_cons.1 hc).1
    have hc2 := (List.pairwise_cons.1 hc).2
    refine List.Pairwise.sublist (pushAll_sublist _ _ _ _ _) ?_
    rw [List.pairwise_append]
    refine ⟨?_, hc2.imp (fun hx => Ancestor.mono hx), ?_⟩
    · rw [List.pairwise_map]
      simp only [List.pairwise_iff_forall_sublist]
      intro _ _ _; exact Relation.ReflTransGen.refl
    · intro a ha' b hb
      simp only [List.mem_map] at ha'
      obtain ⟨x, -, rfl⟩ := ha'
      refine (Ancestor.mono (hc1 b hb)).trans (Relation.ReflTransGen.single ?_)
      exact ⟨⟨p, n, false⟩, by simp, rfl, rfl, rfl⟩
  · rw [hd]
    intro x hx e he
    simp at hx; subst hx
    rcases pushAll_mem he with ⟨h1, -⟩ | h1
    · rw [h1]; exact Relation.ReflTransGen.refl
    · have hc := h.chain
      rw [hq] at hc
      have hc1 := (List.pairwise_cons.1 hc).1
      refine (Ancestor.mono (hc1 e h1)).trans (Relation.ReflTransGen.single ?_)
      exact ⟨⟨p, n, false⟩, by simp, rfl, rfl, rfl⟩
  · refine backtracks_snoc h.back ?_
    intro x hx
    exact h.top x hx (p, n) (by rw [hq]; simp)

theorem Inv.next (hg : g.Lawful) {root : Nat} {st : List Step} {d : DepthFirst}
    (h : Inv g root st d) :
    (DepthFirst.next g d = .ok (none, d) ∧ d.stack = []) ∨
    ∃ s d', DepthFirst.next g d = .ok (some s, d') ∧ Inv g root (st ++ [s]) d' ∧
      measure g d' < measure g d := by
  cases hq : d.stack with
  | nil => left; exact ⟨by simp [DepthFirst.next, hq], rfl⟩
  | cons e rest =>
    right
    obtain ⟨p, n⟩ := e
    have hmem : ∀ x, x ∈ d.nodes ↔ x ∈ discovered root st := by
      intro x; rw [h.nodes, List.mem_reverse]
    by_cases hv : n ∈ d.nodes
    · refine ⟨⟨p, n, true⟩, { d with stack := rest }, by simp [DepthFirst.next, hq, hv],
        h.next_cut hq ((hmem n).1 hv), ?_⟩
      unfold measure; rw [hq]; simp
    · have hn : n ∈ g.nodes := hg.adj_mem _ _ (h.stack_mem (p, n) (by rw [hq]; simp)).2
      refine ⟨⟨p, n, false⟩, _, ?_, h.next_new hg hq (by rw [← hmem]; exact hv), ?_⟩
      · simp only [DepthFirst.next, hq]
        simp only [List.contains_iff_mem, hv, Bool.false_eq_true, if_false, hg.neighbors_eq hn, Out.expect_ok, Out.ok_bind]
        rw [foldl_reverse_push]
      · unfold measure
        rw [hq]
        have := pendingDegree_cons hg.nodes_nodup hn hv
        have h2 := (pushAll_sublist d.nodes p n (g.nbr n) rest).length_le
        have h3 := List.length_filter_le (fun x => x != p) (g.nbr n)
        simp only [List.length_append, List.length_map, List.length_cons] at h2 ⊢
        omega

/-- The whole run. -/
theorem run (hg : g.Lawful) {root : Nat} (hr : root ∈ g.nodes) :
    ∃ d steps d', DepthFirst.new g root = .ok d ∧ Trace (DepthFirst.next g) d steps d' ∧
      DepthFirst.next g d' = .ok (none, d') ∧ Inv g root steps d' ∧ d'.stack = [] := by
  obtain ⟨l, d', t, e, i⟩ := exists_trace (next := DepthFirst.next g) (Inv g root) (measure g)
    (fun l s h => (h.next hg).imp And.left id) [] _ (inv_new hg root)
  refine ⟨_, l, d', new_eq hg hr, t, e, by simpa using i, ?_⟩
  rcases i.next hg with ⟨-, h⟩ | ⟨s, d'', h, -⟩
  · exact h
  · rw [e] at h; simp at h

end DepthFirst
end Gamma
