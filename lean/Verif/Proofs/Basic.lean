import Verif.Model.Core
/-
Helper lemmas: association-list maps, `Out`, iterator loops.
-/
namespace Gamma

namespace HMap
variable {β : Type}

@[simp] theorem get_nil (k : Nat) : (HMap.get ([] : HMap β) k) = none := rfl

theorem get_cons (k k' : Nat) (v : β) (m : HMap β) :
    HMap.get ((k, v) :: m : HMap β) k' = if k' = k then some v else m.get k' := by
  unfold get
  rw [List.lookup_cons]
  by_cases h : k' = k
  · subst h; simp
  · have : (k' == k) = false := by simpa using h
    simp [this, h]

theorem get_remove (m : HMap β) (k k' : Nat) :
    (m.remove k).get k' = if k' = k then none else m.get k' := by
  induction m with
  | nil => simp [remove]
  | cons e m ih =>
    obtain ⟨a, v⟩ := e
    unfold remove at ih ⊢
    rw [List.filter_cons]
    by_cases h : a = k
    · subst h
      simp only [bne_self_eq_false, Bool.false_eq_true, if_false, ih, get_cons]
      split <;> rfl
    · have : (a != k) = true := by simpa using h
      simp only [this, if_true, get_cons, ih]
      by_cases h1 : k' = a
      · subst h1; simp [h]
      · simp [h1]

theorem get_insert (m : HMap β) (k : Nat) (v : β) (k' : Nat) :
    (m.insert k v).get k' = if k' = k then some v else m.get k' := by
  unfold insert
  rw [get_cons, get_remove]
  split <;> rfl

theorem containsKey_eq (m : HMap β) (k : Nat) : m.containsKey k = (m.get k).isSome := rfl

/-- Keys of the map. -/
abbrev keys (m : HMap β) : List Nat := m.map Prod.fst

theorem get_eq_none_iff (m : HMap β) (k : Nat) : m.get k = none ↔ k ∉ m.keys := by
  induction m with
  | nil => simp
  | cons e m ih =>
    obtain ⟨a, v⟩ := e
    rw [get_cons]
    by_cases h : k = a
    · simp [h, keys]
    · simp [h, ih, keys]

theorem mem_of_get {m : HMap β} {k : Nat} {v : β} (h : m.get k = some v) : (k, v) ∈ m := by
  induction m with
  | nil => simp at h
  | cons e m ih =>
    obtain ⟨a, w⟩ := e
    rw [get_cons] at h
    by_cases hk : k = a
    · subst hk; simp at h; subst h; simp
    · simp [hk] at h; exact List.mem_cons_of_mem _ (ih h)

theorem get_of_mem {m : HMap β} (hn : m.keys.Nodup) {k : Nat} {v : β} (h : (k, v) ∈ m) :
    m.get k = some v := by
  induction m with
  | nil => simp at h
  | cons e m ih =>
    obtain ⟨a, w⟩ := e
    simp only [keys, List.map_cons, List.nodup_cons] at hn
    rw [get_cons]
    rcases List.mem_cons.1 h with h' | h'
    · simp only [Prod.mk.injEq] at h'; simp [h'.1, h'.2]
    · have : k ≠ a := by
        rintro rfl
        exact hn.1 (List.mem_map.2 ⟨(k, v), h', rfl⟩)
      simp [this, ih hn.2 h']

theorem get_iff_mem {m : HMap β} (hn : m.keys.Nodup) {k : Nat} {v : β} :
    m.get k = some v ↔ (k, v) ∈ m := ⟨mem_of_get, get_of_mem hn⟩

theorem keys_remove (m : HMap β) (k : Nat) : (m.remove k).keys = m.keys.filter (· != k) := by
  unfold keys remove
  rw [List.filter_map]; rfl

theorem nodup_remove {m : HMap β} (hn : m.keys.Nodup) (k : Nat) : (m.remove k).keys.Nodup := by
  rw [keys_remove]; exact hn.filter _

theorem nodup_insert {m : HMap β} (hn : m.keys.Nodup) (k : Nat) (v : β) :
    (m.insert k v).keys.Nodup := by
  unfold insert
  simp only [keys, List.map_cons, List.nodup_cons]
  refine ⟨?_, nodup_remove hn k⟩
  have := keys_remove m k
  unfold keys at this
  rw [this]; simp

end HMap

theorem vecIndex_eq_ok {α : Type} {v : List α} {i : Nat} {a : α} :
    vecIndex v i = .ok a ↔ v[i]? = some a := by
  unfold vecIndex
  cases h : v[i]? <;> simp

/-! ### Iterator loops -/

section loops
variable {σ α β : Type}

/-- `Trace next s items s'`: calling `next` repeatedly from `s` yields `items` and arrives at `s'`. -/
inductive Trace (next : σ → Out (Option α × σ)) : σ → List α → σ → Prop
  | nil (s : σ) : Trace next s [] s
  | cons (s s' s'' : σ) (a : α) (l : List α) :
      next s = .ok (some a, s') → Trace next s' l s'' → Trace next s (a :: l) s''

theorem Trace.append {next : σ → Out (Option α × σ)} {s s' s'' : σ} {l l' : List α}
    (h : Trace next s l s') (h' : Trace next s' l' s'') : Trace next s (l ++ l') s'' := by
  induction h with
  | nil => exact h'
  | cons s a b x l hn _ ih => exact .cons _ _ _ _ _ hn (ih h')

/-- A `for` loop over an iterator that yields `l` and then `None` folds the body over `l`. -/
theorem forLoop_of_trace {next : σ → Out (Option α × σ)} (body : β → α → Out β)
    {s s' s'' : σ} {l : List α} (h : Trace next s l s') (hend : next s' = .ok (none, s''))
    (fuel : Nat) (hf : l.length < fuel) (b : β) :
    forLoop next body fuel s b = l.foldlM body b := by
  induction h generalizing fuel b with
  | nil s =>
    obtain ⟨n, rfl⟩ : ∃ n, fuel = n + 1 := ⟨fuel - 1, by omega⟩
    simp [forLoop, hend]
  | cons s s1 s2 a l hn _ ih =>
    obtain ⟨n, rfl⟩ : ∃ n, fuel = n + 1 := ⟨fuel - 1, by simp at hf; omega⟩
    simp only [List.length_cons] at hf
    rw [List.foldlM_cons]
    simp only [forLoop, hn, Out.ok_bind]
    congr 1
    funext b'
    exact ih hend n (by omega) b'

/-- A `for` loop over an iterator that yields `l` and then panics. -/
theorem forLoop_of_trace_panic {next : σ → Out (Option α × σ)} (body : β → α → Out β)
    {s s' : σ} {l : List α} (h : Trace next s l s') {m : String} (hend : next s' = .panic m)
    (fuel : Nat) (hf : l.length < fuel) (b : β) :
    forLoop next body fuel s b = (l.foldlM body b >>= fun _ => .panic m) := by
  induction h generalizing fuel b with
  | nil s =>
    obtain ⟨n, rfl⟩ : ∃ n, fuel = n + 1 := ⟨fuel - 1, by omega⟩
    simp [forLoop, hend]
  | cons s s1 s2 a l hn _ ih =>
    obtain ⟨n, rfl⟩ : ∃ n, fuel = n + 1 := ⟨fuel - 1, by simp at hf; omega⟩
    simp only [List.length_cons] at hf
    rw [List.foldlM_cons]
    simp only [forLoop, hn, Out.ok_bind]
    cases hb : body b a with
    | ok b' => simp only [Out.ok_bind]; exact ih hend n (by omega) b'
    | err e => rfl
    | panic m => rfl
    | timeout => rfl

theorem foldlM_ok {f : β → α → Out β} {g : β → α → β} (h : ∀ b a, f b a = .ok (g b a))
    (l : List α) (b : β) : l.foldlM f b = .ok (l.foldl g b) := by
  induction l generalizing b with
  | nil => rfl
  | cons a l ih => rw [List.foldlM_cons, h]; exact ih _

theorem foldl_append_singleton (l acc : List α) :
    l.foldl (fun acc a => acc ++ [a]) acc = acc ++ l := by
  induction l generalizing acc with
  | nil => simp
  | cons a l ih => simp [ih]

theorem collect_of_trace {next : σ → Out (Option α × σ)}
    {s s' s'' : σ} {l : List α} (h : Trace next s l s') (hend : next s' = .ok (none, s''))
    (fuel : Nat) (hf : l.length < fuel) : collect next fuel s = .ok l := by
  unfold collect
  rw [forLoop_of_trace _ h hend fuel hf, foldlM_ok (fun _ _ => rfl), foldl_append_singleton]
  rfl

end loops

/-! ### Outcomes -/

namespace Out
variable {α β : Type}

instance : LawfulMonad Out := LawfulMonad.mk' Out
  (id_map := by intro α x; cases x <;> rfl)
  (pure_bind := by intros; rfl)
  (bind_assoc := by intro α β γ x f g; cases x <;> rfl)

theorem bind_eq_ok {x : Out α} {f : α → Out β} {b : β} :
    (x >>= f) = .ok b ↔ ∃ a, x = .ok a ∧ f a = .ok b := by
  cases x <;> simp

theorem expect_eq_ok {m : String} {x : Out α} {a : α} : x.expect m = .ok a ↔ x = .ok a := by
  cases x <;> simp [expect]

end Out

theorem foldlM_append_out {α β : Type} (f : β → α → Out β) (l l' : List α) (b : β) :
    (l ++ l').foldlM f b = l.foldlM f b >>= fun b' => l'.foldlM f b' := by
  induction l generalizing b with
  | nil => simp
  | cons a l ih =>
    simp only [List.cons_append, List.foldlM_cons]
    cases f b a <;> simp [ih]

end Gamma
