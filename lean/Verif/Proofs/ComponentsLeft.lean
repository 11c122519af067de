import Verif.Proofs.Components
/-
`components`, if a panic is caught and the iterator used again.
-/
namespace Gamma

theorem endsCaught_nil {σ α : Type} {next : σ → σ × Out (Option α)} {s s' : σ} (h1 : next s = (s', .ok none))
    (h2 : next s' = (s', .ok none)) : EndsCaught next s [] := by
  have h3 : ∀ n, callsCaught next n s' = List.replicate n (.ok none) := by
    intro n
    induction n with
    | zero => rfl
    | succ n ih => simp [callsCaught, h2, ih, List.replicate_succ]
  intro n
  cases n with
  | zero => rfl
  | succ n => simp [callsCaught, h1, h3, List.replicate_succ]

theorem endsCaught_cons {σ α : Type} {next : σ → σ × Out (Option α)} {s s' : σ} {o : Out α} {items : List (Out α)}
    (h1 : next s = (s', o >>= fun a => .ok (some a))) (h2 : EndsCaught next s' items) : EndsCaught next s (o :: items) := by
  intro n
  cases n with
  | zero => simp [callsCaught]
  | succ n => simp [callsCaught, h1, h2 n]

theorem endsCaught_unique {σ α : Type} {next : σ → σ × Out (Option α)} {s : σ} {a b : List (Out α)}
    (ha : EndsCaught next s a) (hb : EndsCaught next s b) : a = b := by
  have hne : ∀ o : Out α, (o >>= fun a => Out.ok (some a)) ≠ .ok none := by intro o; cases o <;> simp
  have hinj : ∀ o o' : Out α, (o >>= fun a => Out.ok (some a)) = (o' >>= fun a => Out.ok (some a)) → o = o' := by
    intro o o'; cases o <;> cases o' <;> simp
  have key : ∀ (a b : List (Out α)) (i j : Nat),
      a.map (fun o => o >>= fun a => .ok (some a)) ++ List.replicate i (Out.ok none) =
      b.map (fun o => o >>= fun a => .ok (some a)) ++ List.replicate j (Out.ok none) → a = b := by
    intro a
    induction a with
    | nil =>
      intro b i j h
      cases b with
      | nil => rfl
      | cons y b =>
        have h1 : (y >>= fun a => Out.ok (some a)) ∈ List.replicate i (Out.ok (none : Option α)) := by
          simp only [List.map_nil, List.nil_append] at h
          rw [h]; simp
        exact absurd (List.eq_of_mem_replicate h1) (hne y)
    | cons x a ih =>
      intro b i j h
      cases b with
      | nil =>
        have h1 : (x >>= fun a => Out.ok (some a)) ∈ List.replicate j (Out.ok (none : Option α)) := by
          simp only [List.map_nil, List.nil_append] at h
          rw [← h]; simp
        exact absurd (List.eq_of_mem_replicate h1) (hne x)
      | cons y b =>
        simp only [List.map_cons, List.cons_append, List.cons.injEq] at h
        rw [hinj x y h.1, ih b i j h.2]
  have h1 := (ha (max a.length b.length)).symm.trans (hb (max a.length b.length))
  rw [List.take_of_length_le (by omega), List.take_of_length_le (by omega)] at h1
  exact key a b _ _ h1

/-- If the calls return, catching panics makes no difference. -/
theorem callsCaught_of_calls {σ α : Type} {next : σ → Out (Option α × σ)} {nextLeft : σ → σ × Out (Option α)}
    (h : ∀ s, next s = ((nextLeft s).2 >>= fun o => .ok (o, (nextLeft s).1))) (n : Nat) (s : σ) (os : List (Option α)) :
    calls next n s = .ok os ↔ callsCaught nextLeft n s = os.map .ok := by
  induction n generalizing s os with
  | zero =>
    simp only [calls, callsCaught, Out.ok.injEq]
    constructor
    · rintro rfl; rfl
    · intro h; simpa using h.symm
  | succ n ih =>
    simp only [calls, callsCaught, h s]
    cases hl : (nextLeft s).2 with
    | ok o =>
      simp only [Out.ok_bind]
      constructor
      · intro h1
        cases hc : calls next n (nextLeft s).1 with
        | ok os' =>
          rw [hc] at h1
          simp at h1
          subst h1
          simp [(ih _ _).1 hc]
        | _ => rw [hc] at h1; simp at h1
      · intro h1
        cases os with
        | nil => simp at h1
        | cons o' os =>
          simp only [List.map_cons, List.cons.injEq, Out.ok.injEq] at h1
          rw [(ih _ _).2 h1.2, h1.1]; rfl
    | _ =>
      cases os <;> simp

theorem endsCaught_iff {σ α : Type} {next : σ → Out (Option α × σ)} {nextLeft : σ → σ × Out (Option α)}
    (h : ∀ s, next s = ((nextLeft s).2 >>= fun o => .ok (o, (nextLeft s).1))) (s : σ) (l : List α) :
    EndsAfter next s l ↔ EndsCaught nextLeft s (l.map .ok) := by
  refine forall_congr' fun n => ?_
  rw [callsCaught_of_calls h]
  have : ((List.take n (l.map Out.ok)).map (fun o : Out α => o >>= fun a => Out.ok (some a)) ++
      List.replicate (n - (l.map (Out.ok : α → Out α)).length) (Out.ok none)) =
      ((l.take n).map some ++ List.replicate (n - l.length) none).map Out.ok := by
    rw [← List.map_take]
    simp [Function.comp_def]
  rw [this]

namespace Components

/-- The call agrees with the model that does not tell what is left. -/
theorem next_eq_left (g : GraphI) (fuel : Nat) (c : Components) :
    next g fuel c = ((nextLeft g fuel c).2 >>= fun o => .ok (o, (nextLeft g fuel c).1)) := by
  unfold next nextLeft
  rcases findRoot c.visited c.iter with ⟨o, rest⟩
  cases o with
  | none => rfl
  | some root =>
    simp only
    cases (DepthFirst.new g root).expect "root not found" with
    | ok t =>
      simp only [Out.ok_bind]
      cases (DefaultGraph.tryFromDfs g fuel t).expect "traversal error" with
      | ok comp =>
        simp only [Out.ok_bind]
        by_cases he : comp.isEmpty
        · simp only [he, if_true]
          cases (comp.addNodeQ root).expect "add root to empty graph" <;> rfl
        · simp [he]
      | _ => rfl
    | _ => rfl

/-- What the call finds from the root `root`. -/
def IsItem (g : GraphI) (root : Nat) (o : Out DefaultGraph) : Prop :=
  ∃ steps, DepthFirst.Run g root steps ∧ (LoopsOnce steps → ∃ c, o = .ok c ∧ IsComp g root c) ∧
    (¬ LoopsOnce steps → o = .panic "traversal error")

theorem nextLeft_found {g : GraphI} (hg : g.Directed) {N : Nat}
    (hN : ∀ root ∈ g.nodes, ∀ steps, DepthFirst.Run g root steps → steps.length < N)
    {c : Components} {root : Nat} {rest : List Nat} (hf : findRoot c.visited c.iter = (some root, rest)) (hr : root ∈ g.nodes) :
    ∃ o vis, (∀ fuel, N ≤ fuel → nextLeft g fuel c = ({ visited := vis, iter := rest }, o >>= fun a => .ok (some a))) ∧
      IsItem g root o ∧ ∀ x, x ∈ vis ↔ x ∈ c.visited ∨ x = root ∨ InGraph o x := by
  obtain ⟨d, st, hdn, hst, conv, fails⟩ := DepthFirst.directed_convert hg hr
  by_cases hl : LoopsOnce st
  swap
  · obtain ⟨v, -, r4⟩ := fails hl
    refine ⟨.panic "traversal error", root :: c.visited, fun fuel hfu => ?_, ⟨st, hst, fun h => absurd h hl, fun _ => rfl⟩, ?_⟩
    · have := hN root hr st hst
      simp [nextLeft, hf, hdn, r4 fuel (by omega)]
    · intro x
      simp only [List.mem_cons]
      constructor
      · rintro (h | h)
        · exact .inr (.inl h)
        · exact .inl h
      · rintro (h | h | ⟨c, h, -⟩)
        · exact .inr h
        · exact .inl h
        · simp at h
  obtain ⟨r, r1, r2, r3, r5, r4⟩ := conv hl
  have hnext : ∀ fuel, N ≤ fuel → nextLeft g fuel c =
      if r.isEmpty then
        ({ visited := root :: c.visited, iter := rest },
          (r.addNodeQ root).expect "add root to empty graph" >>= fun component1 => .ok (some component1))
      else
        ({ visited := r.nodes.reverse ++ (root :: c.visited), iter := rest }, .ok (some r)) := by
    intro fuel hfu
    have := hN root hr st hst
    simp [nextLeft, hf, hdn, r4 fuel (by omega)]
  by_cases hs : st = []
  · subst hs
    simp at r2 r3
    have hE : r.isEmpty = true := by
      rw [(C03_counts r r1.reachable).2.2.1, r2]
    have hno : r.hasNode root = false := by
      have := ((C03_counts r r1.reachable).2.2.2.2.1 root).not
      rw [r2] at this
      simpa using this
    obtain ⟨c1, c2, c3, c4⟩ := (C01_add_node r r1.reachable root).2 hno
    have q : r.addNodeQ root = .ok (r.addNode root).1 := by
      simp [DefaultGraph.addNodeQ, c1]
    refine ⟨.ok (r.addNode root).1, root :: c.visited, ?_,
      ⟨[], hst, fun _ => ⟨_, rfl, ⟨[], hst, ?_, ?_⟩, .addNode _ _ r1, ?_⟩, fun h => absurd hl h⟩, ?_⟩
    · intro i hi; rw [hnext i hi, hE, q]; rfl
    · rw [c2, r2]; simp [discovered]
    · rw [c3, r3]; simp
    · intro v hv
      rw [c2, r2] at hv
      simp at hv
      subst hv
      rw [c3, r3]
      simpa [incident] using c4.1
    · intro x
      have : InGraph (.ok (r.addNode root).1) x ↔ x = root := by simp [InGraph, c2, r2]
      rw [this]; simp [or_comm]
  · simp [hs] at r2
    have hE : r.isEmpty = false := by
      rw [← Bool.not_eq_true, (C03_counts r r1.reachable).2.2.1, r2]; simp [discovered]
    refine ⟨.ok r, r.nodes.reverse ++ (root :: c.visited), ?_,
      ⟨st, hst, fun _ => ⟨_, rfl, ⟨st, hst, r2, r3⟩, r1, fun v hv => by rw [r3]; exact r5 v hv⟩, fun h => absurd hl h⟩, ?_⟩
    · intro i hi; rw [hnext i hi, hE]; rfl
    · intro x
      have : InGraph (.ok r) x ↔ x ∈ r.nodes := by simp [InGraph]
      rw [this]
      simp only [List.mem_append, List.mem_reverse, List.mem_cons]
      tauto

/-- The rest of the calls, from a state in which `done` has been consumed and `vis` describes the nodes that are skipped. -/
theorem endsCaught {g : GraphI} (hg : g.Directed) {N : Nat}
    (hN : ∀ root ∈ g.nodes, ∀ steps, DepthFirst.Run g root steps → steps.length < N)
    (c : Components) (hi : ∃ done, g.nodes = done ++ c.iter ∧ ∀ x ∈ done, x ∈ c.visited) :
    ∃ items : List (Nat × Out DefaultGraph),
      (∀ fuel, N ≤ fuel → EndsCaught (nextLeft g fuel) c (items.map Prod.snd)) ∧
      (items.map Prod.fst).Sublist c.iter ∧ (∀ e ∈ items, IsItem g e.1 e.2) ∧
      (∀ x ∈ c.iter, x ∈ c.visited ∨ ∃ e ∈ items, x = e.1 ∨ InGraph e.2 x) ∧
      (∀ e ∈ items, e.1 ∉ c.visited) ∧
      items.Pairwise (fun a b => ¬ InGraph a.2 b.1) ∧
      (∀ l e l', items = l ++ e :: l' → ∀ x, [x, e.1].Sublist g.nodes →
        x ∈ c.visited ∨ ∃ e' ∈ l, x = e'.1 ∨ InGraph e'.2 x) := by
  induction hm : c.iter.length using Nat.strong_induction_on generalizing c with
  | _ m ih =>
    subst hm
    obtain ⟨done, d1, d2⟩ := hi
    cases hf : findRoot c.visited c.iter with
    | mk o rest =>
      cases o with
      | none =>
        obtain ⟨rfl, h2⟩ := findRoot_none hf
        refine ⟨[], fun fuel _ => ?_, by simp, by simp, fun x hx => .inl (h2 x hx), by simp, by simp, by simp⟩
        refine endsCaught_nil (s' := { c with iter := [] }) ?_ ?_
        · simp [nextLeft, hf]
        · simp [nextLeft, findRoot]
      | some root =>
        obtain ⟨skip, e, h1, h2⟩ := findRoot_some hf
        have hr : root ∈ g.nodes := by rw [d1, e]; simp
        have hn : g.nodes = (done ++ skip) ++ root :: rest := by rw [d1, e]; simp
        have hb : ∀ x ∈ done ++ skip, x ∈ c.visited := by
          intro x hx
          rcases List.mem_append.1 hx with hx | hx
          · exact d2 x hx
          · exact h1 x hx
        obtain ⟨o, vis, k1, k2, k3⟩ := nextLeft_found hg hN hf hr
        obtain ⟨items, i1, i2, i3, i4, i5, i6, i7⟩ := ih rest.length (by rw [e]; simp; omega) { visited := vis, iter := rest }
          ⟨done ++ skip ++ [root], by rw [hn]; simp, by
            intro x hx
            rw [k3]
            rcases List.mem_append.1 hx with hx | hx
            · exact .inl (hb x hx)
            · simp at hx; exact .inr (.inl hx)⟩ rfl
        simp only at i2 i4 i5 i7
        refine ⟨(root, o) :: items, fun fuel hfu => ?_, ?_, ?_, ?_, ?_, ?_, ?_⟩
        · exact endsCaught_cons (k1 fuel hfu) (i1 fuel hfu)
        · rw [e]
          exact ((List.Sublist.refl [root]).append i2).trans (List.sublist_append_right skip _)
        · intro a ha
          rcases List.mem_cons.1 ha with rfl | ha
          · exact k2
          · exact i3 a ha
        · intro x hx
          rw [e] at hx
          have key : x ∈ vis → x ∈ c.visited ∨ ∃ e ∈ (root, o) :: items, x = e.1 ∨ InGraph e.2 x := by
            intro h
            rcases (k3 x).1 h with h | h | h
            · exact .inl h
            · exact .inr ⟨(root, o), by simp, .inl h⟩
            · exact .inr ⟨(root, o), by simp, .inr h⟩
          simp only [List.mem_append, List.mem_cons] at hx
          rcases hx with hx | rfl | hx
          · exact .inl (h1 x hx)
          · exact .inr ⟨(x, o), by simp, .inl rfl⟩
          · rcases i4 x hx with h | ⟨a, ha, h⟩
            · exact key h
            · exact .inr ⟨a, List.mem_cons_of_mem _ ha, h⟩
        · intro a ha
          rcases List.mem_cons.1 ha with rfl | ha
          · exact h2
          · intro hc
            exact i5 a ha ((k3 _).2 (.inl hc))
        · rw [List.pairwise_cons]
          exact ⟨fun a ha hc => i5 a ha ((k3 _).2 (.inr (.inr hc))), i6⟩
        · intro l a l' he x hx
          cases l with
          | nil =>
            simp at he
            obtain ⟨rfl, rfl⟩ := he
            have hnd := hg.nodes_nodup
            simp only at hx
            rw [hn] at hx hnd
            exact .inl (hb x (before_mem hnd hx))
          | cons b l =>
            simp at he
            obtain ⟨rfl, he⟩ := he
            rcases i7 l a l' he x hx with h | ⟨a', ha', h⟩
            · rcases (k3 x).1 h with h | h | h
              · exact .inl h
              · exact .inr ⟨(root, o), by simp, .inl h⟩
              · exact .inr ⟨(root, o), by simp, .inr h⟩
            · exact .inr ⟨a', List.mem_cons_of_mem _ ha', h⟩

end Components
end Gamma
