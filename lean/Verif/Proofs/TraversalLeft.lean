import Verif.Proofs.ComponentsLeft
import Verif.Proofs.Dfs
/-
The traversals, if a panic is caught and the iterator used again.
-/
namespace Gamma

@[simp] theorem Out.val?_ok {α : Type} (a : α) : (Out.ok a).val? = some a := rfl
@[simp] theorem Out.val?_panic {α : Type} (m : String) : (Out.panic m : Out α).val? = none := rfl

/-- The iterator `nextLeft`, panics caught, yields what `next'` yields: each call panics and makes no difference to the
state `S` seen by `next'`, or does what `next'` does.  `bad` counts the panics to come, `w` what a step adds to them. -/
structure Simulates {σ α : Type} (nextLeft : σ → σ × Out (Option α)) (next' : σ → Out (Option α × σ)) (S : σ → σ)
    (Inv : σ → Prop) (μ bad : σ → Nat) (w : α → Nat) (exact : Prop) : Prop where
  step : ∀ d, Inv d →
    (∃ d', nextLeft d = (d', .panic "unwrap") ∧ Inv d' ∧ S d' = S d ∧ μ d' < μ d ∧ bad d = bad d' + 1) ∨
    (nextLeft d = (d, .ok none) ∧ next' (S d) = .ok (none, S d) ∧ bad d = 0) ∨
    (∃ s d', nextLeft d = (d', .ok (some s)) ∧ next' (S d) = .ok (some s, S d') ∧ Inv d' ∧ bad d' ≤ bad d + w s ∧
      (exact → bad d' = bad d + w s))

theorem Simulates.calls {σ α : Type} {nextLeft : σ → σ × Out (Option α)} {next' : σ → Out (Option α × σ)} {S : σ → σ}
    {Inv : σ → Prop} {μ bad : σ → Nat} {w : α → Nat} {ex : Prop} (h : Simulates nextLeft next' S Inv μ bad w ex) (n : Nat) (d : σ)
    (hd : Inv d) :
    Gamma.calls next' ((callsCaught nextLeft n d).filterMap Out.val?).length (S d) =
      .ok ((callsCaught nextLeft n d).filterMap Out.val?) ∧
    ∀ o ∈ callsCaught nextLeft n d, (∃ a, o = .ok a) ∨ o = .panic "unwrap" := by
  induction n generalizing d with
  | zero => simp [callsCaught, Gamma.calls]
  | succ n ih =>
    rcases h.step d hd with ⟨d', e1, h1, h2, -⟩ | ⟨e1, e2, -⟩ | ⟨s, d', e1, e2, h1, -⟩
    · obtain ⟨i1, i2⟩ := ih d' h1
      simp only [callsCaught, e1, List.filterMap_cons, Out.val?_panic, List.mem_cons]
      rw [h2] at i1
      refine ⟨i1, ?_⟩
      rintro o (rfl | ho)
      · exact .inr rfl
      · exact i2 o ho
    · obtain ⟨i1, i2⟩ := ih d hd
      simp only [callsCaught, e1, List.filterMap_cons, Out.val?_ok, List.mem_cons, List.length_cons, Gamma.calls, e2, Out.ok_bind, i1]
      refine ⟨trivial, ?_⟩
      rintro o (rfl | ho)
      · exact .inl ⟨_, rfl⟩
      · exact i2 o ho
    · obtain ⟨i1, i2⟩ := ih d' h1
      simp only [callsCaught, e1, List.filterMap_cons, Out.val?_ok, List.mem_cons, List.length_cons, Gamma.calls, e2, Out.ok_bind, i1]
      refine ⟨trivial, ?_⟩
      rintro o (rfl | ho)
      · exact .inl ⟨_, rfl⟩
      · exact i2 o ho

theorem Simulates.ends {σ α : Type} {nextLeft : σ → σ × Out (Option α)} {next' : σ → Out (Option α × σ)} {S : σ → σ}
    {Inv : σ → Prop} {μ bad : σ → Nat} {w : α → Nat} {ex : Prop} (h : Simulates nextLeft next' S Inv μ bad w ex) (steps : List α) (d : σ)
    (hd : Inv d) (he : EndsAfter next' (S d) steps) :
    ∃ items : List (Out α), EndsCaught nextLeft d items ∧ items.filterMap Out.val? = steps ∧
      (∀ o ∈ items, (∃ a, o = .ok a) ∨ o = .panic "unwrap") ∧
      items.length ≤ steps.length + (bad d + (steps.map w).sum) ∧
      (ex → items.length = steps.length + (bad d + (steps.map w).sum)) := by
  induction hk : steps.length generalizing steps d with
  | zero =>
    obtain rfl := List.length_eq_zero_iff.1 hk
    clear hk
    induction hm : μ d using Nat.strong_induction_on generalizing d with
    | _ m ih =>
      subst hm
      rcases h.step d hd with ⟨d', e1, h1, h2, h3, h4⟩ | ⟨e1, e2, h4⟩ | ⟨s, d', e1, e2, h1, -⟩
      · obtain ⟨items, i1, i2, i3, i4, i5⟩ := ih (μ d') h3 d' h1 (h2 ▸ he) rfl
        refine ⟨.panic "unwrap" :: items, endsCaught_cons e1 i1, by rw [List.filterMap_cons_none rfl]; exact i2, ?_, ?_, ?_⟩
        · rintro o ho
          rcases List.mem_cons.1 ho with rfl | ho
          · exact .inr rfl
          · exact i3 o ho
        · simp at i4 ⊢; omega
        · intro hx; have := i5 hx; simp at this ⊢; omega
      · exact ⟨[], endsCaught_nil e1 e1, rfl, by simp, by simp, fun _ => by simp [h4]⟩
      · have := he 1
        simp [Gamma.calls, e2] at this
  | succ k ihk =>
    induction hm : μ d using Nat.strong_induction_on generalizing d with
    | _ m ih =>
      subst hm
      rcases h.step d hd with ⟨d', e1, h1, h2, h3, h4⟩ | ⟨e1, e2, h4⟩ | ⟨s, d', e1, e2, h1, h5, h6⟩
      · obtain ⟨items, i1, i2, i3, i4, i5⟩ := ih (μ d') h3 d' h1 (h2 ▸ he) rfl
        refine ⟨.panic "unwrap" :: items, endsCaught_cons e1 i1, by rw [List.filterMap_cons_none rfl]; exact i2, ?_, ?_, ?_⟩
        · rintro o ho
          rcases List.mem_cons.1 ho with rfl | ho
          · exact .inr rfl
          · exact i3 o ho
        · simp at i4 ⊢; omega
        · intro hx; have := i5 hx; simp at this ⊢; omega
      · have := he 1
        obtain ⟨a, l, rfl⟩ : ∃ a l, steps = a :: l := by
          cases steps with
          | nil => simp at hk
          | cons a l => exact ⟨a, l, rfl⟩
        simp [Gamma.calls, e2] at this
      · obtain ⟨a, l, rfl⟩ : ∃ a l, steps = a :: l := by
          cases steps with
          | nil => simp at hk
          | cons a l => exact ⟨a, l, rfl⟩
        have hsa : s = a := by
          have := he 1
          simp [Gamma.calls, e2] at this
          exact this
        subst hsa
        have he' : EndsAfter next' (S d') l := by
          intro n
          have := he (n + 1)
          simp only [Gamma.calls, e2, Out.ok_bind] at this
          cases hc : Gamma.calls next' n (S d') with
          | ok os => rw [hc] at this; simpa using this
          | _ => rw [hc] at this; simp at this
        obtain ⟨items, i1, i2, i3, i4, i5⟩ := ihk l d' h1 he' (by simpa using hk)
        refine ⟨.ok s :: items, endsCaught_cons e1 i1, by simpa using i2, ?_, ?_, ?_⟩
        · rintro o ho
          rcases List.mem_cons.1 ho with rfl | ho
          · exact .inl ⟨_, rfl⟩
          · exact i3 o ho
        · simp at i4 ⊢; omega
        · intro hx; have := i5 hx; have := h6 hx; simp at this ⊢; omega

/-! ### The two traversals -/

theorem GraphI.answers_iff {g : GraphI} {v : Nat} : g.answers v = true ↔ ∃ l, g.neighbors v = .ok l := by
  unfold GraphI.answers
  cases g.neighbors v <;> simp

/-- Neighbors of `v` without an answer. -/
def GraphI.mute (g : GraphI) (v : Nat) : Nat := (g.nbr v).countP (fun x => !g.answers x)

theorem filter_pushNeighbor {g : GraphI} {vis : List Nat} (hv : ∀ x ∈ vis, g.answers x = true) {p n : Nat}
    (ns : List Nat) (rest : List (Nat × Nat)) :
    (DepthFirst.pushAll vis p n ns rest).filter (fun e => g.answers e.2) =
      DepthFirst.pushAll vis p n (ns.filter g.answers) (rest.filter (fun e => g.answers e.2)) ∧
    (DepthFirst.pushAll vis p n ns rest).countP (fun e => !g.answers e.2) ≤
      rest.countP (fun e => !g.answers e.2) + ns.countP (fun x => !g.answers x) := by
  induction ns with
  | nil => simp [DepthFirst.pushAll]
  | cons a ns ih =>
    obtain ⟨ih1, ih2⟩ := ih
    rw [DepthFirst.pushAll_cons]
    have hfil : ∀ (l : List (Nat × Nat)) (q : Nat × Nat → Bool), (l.filter q).countP (fun e => !g.answers e.2) ≤
        l.countP (fun e => !g.answers e.2) := fun l q => List.filter_sublist.countP_le
    by_cases ha : g.answers a = true
    · rw [List.filter_cons_of_pos ha, DepthFirst.pushAll_cons, ← ih1, List.countP_cons_of_neg (by simp [ha])]
      unfold DepthFirst.pushNeighbor
      by_cases hp : a = p
      · simp [hp]; exact ih2
      · by_cases hvis : a ∈ vis
        · simp only [beq_iff_eq, hp, if_false, List.contains_iff_mem, hvis, if_true]
          constructor
          · rw [List.filter_cons_of_pos (by simpa using ha), List.filter_filter, List.filter_filter]
            congr 2
            funext e; exact Bool.and_comm _ _
          · rw [List.countP_cons_of_neg (by simp [ha])]
            exact (hfil _ _).trans ih2
        · simp only [beq_iff_eq, hp, if_false, List.contains_iff_mem, hvis, if_false]
          exact ⟨by rw [List.filter_cons_of_pos (by simpa using ha)], by rw [List.countP_cons_of_neg (by simp [ha])]; exact ih2⟩
    · rw [List.filter_cons_of_neg ha, ← ih1, List.countP_cons_of_pos (by simp [ha])]
      have hvis : a ∉ vis := fun h => ha (hv a h)
      unfold DepthFirst.pushNeighbor
      by_cases hp : a = p
      · simp only [hp, beq_self_eq_true, if_true, true_and]; omega
      · simp only [beq_iff_eq, hp, if_false, List.contains_iff_mem, hvis, if_false]
        rw [List.filter_cons_of_neg (by simpa using ha), List.countP_cons_of_pos (by simp [ha])]
        exact ⟨rfl, by omega⟩

/-- The traversal of `g.answering` that goes with the state `d`. -/
def DepthFirst.heard (g : GraphI) (d : DepthFirst) : DepthFirst := { d with stack := d.stack.filter (fun e => g.answers e.2) }

theorem DepthFirst.simulates (g : GraphI) (hn : ∀ v, (∃ l, g.neighbors v = .ok l) ∨ ∃ e, g.neighbors v = .err e) :
    Simulates (DepthFirst.nextLeft g) (DepthFirst.next g.answering) (DepthFirst.heard g)
      (fun d => ∀ x ∈ d.nodes, g.answers x = true) (fun d => d.stack.length)
      (fun d => d.stack.countP (fun e => !g.answers e.2)) (fun s => if s.cut then 0 else g.mute s.tid) False where
  step := by
    rintro ⟨nodes, stack⟩ hd
    simp only at hd
    cases stack with
    | nil => right; left; simp [DepthFirst.nextLeft, DepthFirst.next, DepthFirst.heard]
    | cons e rest =>
      obtain ⟨p, n⟩ := e
      by_cases ha : g.answers n = true
      · right; right
        obtain ⟨l, hl⟩ := GraphI.answers_iff.1 ha
        by_cases hv : n ∈ nodes
        · refine ⟨⟨p, n, true⟩, ⟨nodes, rest⟩, by simp [DepthFirst.nextLeft, hv], ?_, hd, ?_, by simp⟩
          · simp [DepthFirst.next, DepthFirst.heard, ha, hv]
          · simp [ha]
        · have := filter_pushNeighbor hd (p := p) (n := n) l rest
          refine ⟨⟨p, n, false⟩, ⟨n :: nodes, DepthFirst.pushAll nodes p n l rest⟩, ?_, ?_, ?_, ?_, by simp⟩
          · simp [DepthFirst.nextLeft, hv, hl, ← DepthFirst.foldl_reverse_push]
          · simp only [DepthFirst.next, DepthFirst.heard]
            rw [List.filter_cons_of_pos (by simpa using ha)]
            simp only [List.contains_iff_mem, hv, if_false, GraphI.answering, hl, Out.ok_bind, Out.expect_ok,
              DepthFirst.foldl_reverse_push, this.1]
          · intro x hx
            rcases List.mem_cons.1 hx with rfl | hx
            · exact ha
            · exact hd x hx
          · simp only [Bool.false_eq_true, if_false, GraphI.mute, GraphI.nbr_of_ok hl]
            rw [List.countP_cons_of_neg (by simp [ha])]
            exact this.2
      · left
        obtain ⟨er, he⟩ := (hn n).resolve_left (fun h => ha (GraphI.answers_iff.2 h))
        have hv : n ∉ nodes := fun h => ha (hd n h)
        refine ⟨⟨nodes, rest⟩, by simp [DepthFirst.nextLeft, hv, he], hd, ?_, by simp, ?_⟩
        · simp [DepthFirst.heard, ha]
        · simp only; rw [List.countP_cons_of_pos (by simp [ha])]

theorem filter_bfsPush {g : GraphI} {vis : List Nat} (hv : ∀ x ∈ vis, g.answers x = true) {p n : Nat} (hp : g.answers p = true)
    (ns : List Nat) (rest : List (Nat × Nat)) :
    (ns.foldl (BreadthFirst.pushNeighbor vis p n) rest).filter (fun e => g.answers e.2) =
      (ns.filter g.answers).foldl (BreadthFirst.pushNeighbor vis p n) (rest.filter (fun e => g.answers e.2)) ∧
    (ns.foldl (BreadthFirst.pushNeighbor vis p n) rest).countP (fun e => !g.answers e.2) =
      rest.countP (fun e => !g.answers e.2) + ns.countP (fun x => !g.answers x) := by
  induction ns generalizing rest with
  | nil => simp
  | cons a ns ih =>
    obtain ⟨ih1, ih2⟩ := ih (BreadthFirst.pushNeighbor vis p n rest a)
    rw [List.foldl_cons, ih1, ih2]
    by_cases ha : g.answers a = true
    · rw [List.filter_cons_of_pos ha, List.foldl_cons, List.countP_cons_of_neg (by simp [ha])]
      by_cases h : a = p ∨ a ∈ vis
      · have h' : ∀ q, BreadthFirst.pushNeighbor vis p n q a = q := by
          intro q; unfold BreadthFirst.pushNeighbor; rw [if_pos (by simpa using h)]
        rw [h', h']; exact ⟨rfl, rfl⟩
      · have h' : ∀ q, BreadthFirst.pushNeighbor vis p n q a = q ++ [(n, a)] := by
          intro q; unfold BreadthFirst.pushNeighbor; rw [if_neg (by simpa using h)]
        rw [h', h', List.filter_append, List.countP_append]; simp [ha]
    · have hvis : a ∉ vis := fun h => ha (hv a h)
      have hap : a ≠ p := fun h => ha (h ▸ hp)
      have h' : ∀ q, BreadthFirst.pushNeighbor vis p n q a = q ++ [(n, a)] := by
        intro q; unfold BreadthFirst.pushNeighbor; rw [if_neg (by simp [hvis, hap])]
      rw [List.filter_cons_of_neg ha, List.countP_cons_of_pos (by simp [ha]), h', List.filter_append, List.countP_append]
      simp [ha]; omega

/-- The traversal of `g.answering` that goes with the state `b`. -/
def BreadthFirst.heard (g : GraphI) (b : BreadthFirst) : BreadthFirst := { b with queue := b.queue.filter (fun e => g.answers e.2) }

theorem bfsPush_src {vis : List Nat} {p n : Nat} (ns : List Nat) (rest : List (Nat × Nat)) (e : Nat × Nat)
    (h : e ∈ ns.foldl (BreadthFirst.pushNeighbor vis p n) rest) : e ∈ rest ∨ e.1 = n := by
  induction ns generalizing rest with
  | nil => exact .inl h
  | cons a ns ih =>
    rcases ih _ h with h | h
    · unfold BreadthFirst.pushNeighbor at h
      split at h
      · exact .inl h
      · rcases List.mem_append.1 h with h | h
        · exact .inl h
        · simp at h; exact .inr (by rw [h])
    · exact .inr h

theorem BreadthFirst.simulates (g : GraphI) (hn : ∀ v, (∃ l, g.neighbors v = .ok l) ∨ ∃ e, g.neighbors v = .err e) :
    Simulates (BreadthFirst.nextLeft g) (BreadthFirst.next g.answering) (BreadthFirst.heard g)
      (fun b => (∀ x ∈ b.nodes, g.answers x = true) ∧ ∀ e ∈ b.queue, g.answers e.1 = true) (fun b => b.queue.length)
      (fun b => b.queue.countP (fun e => !g.answers e.2)) (fun s => if s.cut then 0 else g.mute s.tid) True where
  step := by
    rintro ⟨nodes, queue⟩ ⟨hd, hs⟩
    simp only at hd hs
    cases queue with
    | nil => right; left; simp [BreadthFirst.nextLeft, BreadthFirst.next, BreadthFirst.heard]
    | cons e rest =>
      obtain ⟨p, n⟩ := e
      have hs' : ∀ e ∈ rest, g.answers e.1 = true := fun e he => hs e (by simp [he])
      have hp : g.answers p = true := hs (p, n) (by simp)
      by_cases ha : g.answers n = true
      · right; right
        obtain ⟨l, hl⟩ := GraphI.answers_iff.1 ha
        by_cases hv : n ∈ nodes
        · refine ⟨⟨p, n, true⟩, ⟨nodes, rest⟩, by simp [BreadthFirst.nextLeft, hv], ?_, ⟨hd, hs'⟩, ?_, ?_⟩
          · simp [BreadthFirst.next, BreadthFirst.heard, ha, hv]
          · simp [ha]
          · simp [ha]
        · have := filter_bfsPush hd (n := n) hp l rest
          have hk : (l.foldl (BreadthFirst.pushNeighbor nodes p n) rest).countP (fun e => !g.answers e.2) =
              ((p, n) :: rest).countP (fun e => !g.answers e.2) +
                (if (⟨p, n, false⟩ : Step).cut then 0 else g.mute (⟨p, n, false⟩ : Step).tid) := by
            simp only [Bool.false_eq_true, if_false, GraphI.mute, GraphI.nbr_of_ok hl]
            rw [List.countP_cons_of_neg (by simp [ha])]
            exact this.2
          refine ⟨⟨p, n, false⟩, ⟨n :: nodes, l.foldl (BreadthFirst.pushNeighbor nodes p n) rest⟩, ?_, ?_, ⟨?_, ?_⟩, hk.le, fun _ => hk⟩
          · simp [BreadthFirst.nextLeft, hv, hl]
          · simp only [BreadthFirst.next, BreadthFirst.heard]
            rw [List.filter_cons_of_pos (by simpa using ha)]
            simp only [List.contains_iff_mem, hv, if_false, GraphI.answering, hl, Out.ok_bind, Out.expect_ok, this.1]
          · intro x hx
            rcases List.mem_cons.1 hx with rfl | hx
            · exact ha
            · exact hd x hx
          · intro e he
            rcases bfsPush_src l rest e he with h | h
            · exact hs' e h
            · rw [h]; exact ha
      · left
        obtain ⟨er, he⟩ := (hn n).resolve_left (fun h => ha (GraphI.answers_iff.2 h))
        have hv : n ∉ nodes := fun h => ha (hd n h)
        refine ⟨⟨nodes, rest⟩, by simp [BreadthFirst.nextLeft, hv, he], ⟨hd, hs'⟩, ?_, by simp, ?_⟩
        · simp [BreadthFirst.heard, ha]
        · simp only; rw [List.countP_cons_of_pos (by simp [ha])]

end Gamma
