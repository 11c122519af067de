import Verif.Proofs.DefaultGraph
/-
The conversions into `DefaultGraph`.
-/
namespace Gamma

namespace DefaultGraph

theorem tryFromRow_cases (adj : List (List Nat)) (sid : Nat) (row : List Nat) (es : List (Nat × Nat)) :
    ((∀ pre t rest e, row = pre ++ t :: rest → ¬ EntryDefect adj sid t rest e) ∧
      tryFromRow adj sid row es = .ok (es ++ rowEdges sid row)) ∨
    (∃ pre t rest e, row = pre ++ t :: rest ∧ EntryDefect adj sid t rest e ∧
      (∀ pre' t' mid e', pre = pre' ++ t' :: mid →
        ¬ EntryDefect adj sid t' (mid ++ t :: rest) e') ∧
      tryFromRow adj sid row es = .err e) := by
  induction row generalizing es with
  | nil =>
    left
    refine ⟨?_, by simp [tryFromRow, rowEdges]⟩
    intro pre t rest e h; simp at h
  | cons t rest ih =>
    by_cases h1 : adj.length ≤ t
    · right
      exact ⟨[], t, rest, .missingNode t, rfl, ⟨rfl, h1⟩, by simp, by simp [tryFromRow, h1]⟩
    · by_cases h2 : t ∈ rest
      · right
        exact ⟨[], t, rest, .duplicateEdge sid t, rfl, ⟨rfl, rfl, by omega, h2⟩, by simp, by
          simp [tryFromRow, h1, h2]⟩
      · have hlt : t < adj.length := by omega
        have hg : adj[t]? = some adj[t] := List.getElem?_eq_getElem hlt
        by_cases h3 : sid ∈ adj[t]
        · have e0 : tryFromRow adj sid (t :: rest) es =
              tryFromRow adj sid rest (if sid < t then es ++ [(sid, t)] else es) := by
            simp [tryFromRow, h1, h2, vecIndex, hg, h3]
          have hgood : ∀ e, ¬ EntryDefect adj sid t rest e := by
            intro e he
            cases e with
            | missingNode x => exact h1 he.2
            | duplicateNode x => exact he
            | missingEdge a b => exact he.2.2.2.2 _ hg h3
            | duplicateEdge a b => exact h2 he.2.2.2
          rw [e0]
          rcases ih (if sid < t then es ++ [(sid, t)] else es) with ⟨hg', he'⟩ | ⟨pre, t', rest', e, hr, hd, hfirst, he'⟩
          · left
            refine ⟨?_, ?_⟩
            · intro pre t' rest' e h hd
              cases pre with
              | nil => simp at h; rw [← h.1, ← h.2] at hd; exact hgood e hd
              | cons a pre => simp at h; exact hg' pre t' rest' e h.2 hd
            · rw [he']
              by_cases hst : sid < t <;> simp [rowEdges, hst]
          · right
            refine ⟨t :: pre, t', rest', e, by rw [hr]; rfl, hd, ?_, he'⟩
            intro pre' t'' mid e' h hd'
            cases pre' with
            | nil =>
              simp at h; rw [← h.1, ← h.2, ← hr] at hd'; exact hgood e' hd'
            | cons a pre' => simp at h; exact hfirst pre' t'' mid e' h.2 hd'
        · right
          refine ⟨[], t, rest, .missingEdge t sid, rfl, ⟨rfl, rfl, hlt, h2, ?_⟩, by simp, ?_⟩
          · intro r hr; rw [hg] at hr; cases hr; exact h3
          · simp [tryFromRow, h1, h2, vecIndex, hg, h3]

theorem tryFromRows_cases (adj : List (List Nat)) (rows : List (List Nat)) (sid : Nat)
    (g : DefaultGraph) (hrows : rows = adj.drop sid) :
    ((∀ s pre t rest e, sid ≤ s → adj[s]? = some (pre ++ t :: rest) →
        ¬ EntryDefect adj s t rest e) ∧
      ∃ ind : HMap Nat,
        (∀ x i, ind.get x = some i ↔ (if sid ≤ x ∧ x < sid + rows.length then x = i
          else g.indices.get x = some i)) ∧
        tryFromRows adj rows sid g = .ok
        { indices := ind, adjacency := g.adjacency
          nodes := g.nodes ++ List.range' sid rows.length
          edges := g.edges ++ (rows.mapIdx (fun i row => rowEdges (sid + i) row)).flatten }) ∨
    (∃ s pre t rest e, sid ≤ s ∧ adj[s]? = some (pre ++ t :: rest) ∧ EntryDefect adj s t rest e ∧
      (∀ s' pre' t' rest' e', sid ≤ s' → s' < s → adj[s']? = some (pre' ++ t' :: rest') →
        ¬ EntryDefect adj s' t' rest' e') ∧
      (∀ pre' t' mid e', pre = pre' ++ t' :: mid → ¬ EntryDefect adj s t' (mid ++ t :: rest) e') ∧
      tryFromRows adj rows sid g = .err e) := by
  induction rows generalizing sid g with
  | nil =>
    left
    refine ⟨?_, g.indices, ?_, ?_⟩
    · intro s pre t rest e hs h
      have : adj.length ≤ sid := by
        have := congrArg List.length hrows; simp at this; omega
      rw [List.getElem?_eq_none (by omega)] at h; simp at h
    · intro x i
      have : ¬ (sid ≤ x ∧ x < sid + ([] : List (List Nat)).length) := by simp
      rw [if_neg this]
    · simp [tryFromRows]
  | cons row rows ih =>
    have hget : adj[sid]? = some row := by
      have := congrArg (fun l => l[0]?) hrows
      simp at this; exact this.symm
    have hrest : rows = adj.drop (sid + 1) := by
      have := congrArg List.tail hrows
      simpa using this
    rcases tryFromRow_cases adj sid row g.edges with ⟨hgood, hrow⟩ | ⟨pre, t, rest, e, hr, hd, hfirst, hrow⟩
    · rcases ih (sid + 1) { g with edges := g.edges ++ rowEdges sid row, nodes := g.nodes ++ [sid], indices := g.indices.insert sid sid } hrest with ⟨hg, ind, hind, he⟩ | ⟨s, pre, t, rest, e, hs, hsr, hd, hf1, hf2, he⟩
      · left
        refine ⟨?_, ind, ?_, ?_⟩
        · intro s pre t rest e hs h
          rcases Nat.eq_or_lt_of_le hs with rfl | hlt
          · rw [hget] at h; simp at h; exact hgood pre t rest e h
          · exact hg s pre t rest e hlt h
        · intro x i
          rw [hind]
          simp only [HMap.get_insert, List.length_cons]
          by_cases hx : x = sid
          · subst hx; simp
          · have : (sid + 1 ≤ x ∧ x < sid + 1 + rows.length) ↔ (sid ≤ x ∧ x < sid + (rows.length + 1)) := by omega
            simp only [hx, if_false, this]
        · simp only [tryFromRows, hrow, Out.ok_bind]
          rw [he]
          have h1 : ∀ i, sid + 1 + i = sid + (i + 1) := by intro i; omega
          simp [List.range'_succ, List.mapIdx_cons, h1]
      · right
        refine ⟨s, pre, t, rest, e, by omega, hsr, hd, ?_, hf2, ?_⟩
        · intro s' pre' t' rest' e' h1 h2 h3
          rcases Nat.eq_or_lt_of_le h1 with rfl | hlt
          · rw [hget] at h3; simp at h3; exact hgood pre' t' rest' e' h3
          · exact hf1 s' pre' t' rest' e' hlt h2 h3
        · simp only [tryFromRows, hrow, Out.ok_bind]; exact he
    · right
      refine ⟨sid, pre, t, rest, e, le_refl _, by rw [hget, hr], hd, ?_, hfirst, ?_⟩
      · intro s' pre' t' rest' e' h1 h2; omega
      · simp [tryFromRows, hrow]

/-- Outcome of the adjacency conversion: either no entry is defective and the graph is as expected, or
the first defect is reported. -/
theorem tryFromAdjacency_cases (adj : List (List Nat)) :
    ((∀ s pre t rest e, adj[s]? = some (pre ++ t :: rest) → ¬ EntryDefect adj s t rest e) ∧
      ∃ g : DefaultGraph, tryFromAdjacency adj = .ok g ∧ g.adjacency = adj ∧
        g.nodes = List.range adj.length ∧ g.edges = (adj.mapIdx rowEdges).flatten ∧
        (∀ x i, g.indices.get x = some i ↔ x < adj.length ∧ x = i)) ∨
    (∃ e, FirstDefect adj e ∧ tryFromAdjacency adj = .err e) := by
  rcases tryFromRows_cases adj adj 0 new (by simp) with ⟨hg, ind, hind, he⟩ | ⟨s, pre, t, rest, e, hs, hsr, hd, hf1, hf2, he⟩
  · left
    refine ⟨fun s pre t rest e h => hg s pre t rest e (Nat.zero_le _) h,
      { indices := ind, adjacency := adj, nodes := new.nodes ++ List.range' 0 adj.length
        edges := new.edges ++ (adj.mapIdx (fun i row => rowEdges (0 + i) row)).flatten },
      ?_, rfl, ?_, ?_, ?_⟩
    · unfold tryFromAdjacency; rw [he]; rfl
    · simp [new, List.range_eq_range']
    · simp [new]
    · intro x i
      show ind.get x = some i ↔ _
      rw [hind]
      simp only [Nat.zero_le, true_and, Nat.zero_add]
      split
      · simp_all
      · simp_all [new]
  · right
    refine ⟨e, ⟨s, pre, t, rest, hsr, hd, ?_, hf2⟩, ?_⟩
    · intro s' pre' t' rest' e' h1 h2; exact hf1 s' pre' t' rest' e' (Nat.zero_le _) h1 h2
    · unfold tryFromAdjacency; rw [he]; rfl

theorem validAdjacency_iff (adj : List (List Nat)) :
    ValidAdjacency adj ↔
      ∀ s pre t rest e, adj[s]? = some (pre ++ t :: rest) → ¬ EntryDefect adj s t rest e := by
  constructor
  · intro hv s pre t rest e hs hd
    have hmem : t ∈ pre ++ t :: rest := by simp
    have hlt := hv.inRange s _ hs t hmem
    cases e with
    | missingNode x => have := hd.2; omega
    | duplicateNode x => exact hd
    | missingEdge a b =>
      have hg : adj[t]? = some adj[t] := List.getElem?_eq_getElem hlt
      exact hd.2.2.2.2 _ hg (hv.symmetric s _ hs t hmem _ hg)
    | duplicateEdge a b =>
      have := hv.noRepeat s _ hs
      rw [List.nodup_append] at this
      exact (List.nodup_cons.1 this.2.1).1 hd.2.2.2
  · intro h
    refine ⟨?_, ?_, ?_⟩
    · intro i row hi t ht
      obtain ⟨pre, rest, rfl⟩ := List.append_of_mem ht
      by_contra hc
      exact h i pre t rest (.missingNode t) hi ⟨rfl, by omega⟩
    · intro i row hi
      have key : ∀ pre l, row = pre ++ l → l.Nodup := by
        intro pre l
        induction l generalizing pre with
        | nil => intro _; simp
        | cons a l ih =>
          intro hr
          rw [List.nodup_cons]
          refine ⟨?_, ih (pre ++ [a]) (by simp [hr])⟩
          intro ha
          by_cases hlt : a < adj.length
          · exact h i pre a l (.duplicateEdge i a) (by rw [hi, hr]) ⟨rfl, rfl, hlt, ha⟩
          · exact h i pre a l (.missingNode a) (by rw [hi, hr]) ⟨rfl, by omega⟩
      exact key [] row rfl
    · intro i row hi t ht row' hrow'
      have hlt : t < adj.length := (List.getElem?_eq_some_iff.1 hrow').1
      -- take the last occurrence of t
      have key : ∀ pre l, row = pre ++ l → t ∈ l → i ∈ row' := by
        intro pre l
        induction l generalizing pre with
        | nil => intro _ h; simp at h
        | cons a l ih =>
          intro hr hm
          by_cases hl : t ∈ l
          · exact ih (pre ++ [a]) (by simp [hr]) hl
          · have hta : t = a := by
              rcases List.mem_cons.1 hm with h1 | h1
              · exact h1
              · exact absurd h1 hl
            subst hta
            by_contra hc
            refine h i pre t l (.missingEdge t i) (by rw [hi, hr]) ⟨rfl, rfl, hlt, hl, ?_⟩
            intro r hr'; rw [hrow'] at hr'; cases hr'; exact hc
      exact key [] row rfl ht

end DefaultGraph
end Gamma
