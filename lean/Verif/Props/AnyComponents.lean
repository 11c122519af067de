import Verif.Proofs.ComponentsAny
import Verif.Props.Caught
/-
Property C96: `components` on any implementation of `Graph`.
-/
namespace Gamma

section
variable (g : GraphI) (hn : ∀ v, (∃ l, g.neighbors v = .ok l) ∨ ∃ e, g.neighbors v = .err e)
  (hfin : ∀ r ∈ g.nodes, ∃ L : List Nat, ∀ v, g.LeadsTo r v → v ∈ L)
include hn hfin

/-- **C96, ends.**  On any implementation of `Graph` each node of which leads to finitely many others, `components` ends, in one
way only, if panics are caught. -/
theorem C96_caught_ends : ∃! items, Components.CaughtRun g items := by
  obtain ⟨items, N, h1, -⟩ := Components.endsCaught_any hn (Components.new g) hfin
  refine ⟨items.map Prod.snd, ⟨N, h1⟩, ?_⟩
  rintro items' ⟨M, h2⟩
  exact endsCaught_unique (h2 (max M N) (by omega)) (h1 (max M N) (by omega))

/-- **C96.**  Every call has a root of its own, in the order of `nodes()`, and does what `Components.Outcome` tells.  Every node is in a graph
that is yielded or is the root of a call that panics; and no root is in a graph yielded before. -/
theorem C96_caught (items : List (Out DefaultGraph)) (h : Components.CaughtRun g items) :
    ∃ roots : List Nat, roots.length = items.length ∧ roots.Sublist g.nodes ∧ roots.Nodup ∧
      (∀ e ∈ roots.zip items, Components.Outcome g e.1 e.2) ∧
      (∀ x ∈ g.nodes, (∃ m, (x, .panic m) ∈ roots.zip items) ∨ ∃ o ∈ items, Components.InGraph o x) ∧
      (roots.zip items).Pairwise (fun a b => ¬ Components.InGraph a.2 b.1) := by
  obtain ⟨its, N, h1, h2, h3, h4, h5, h6⟩ := Components.endsCaught_any hn (Components.new g) hfin
  obtain ⟨M, h0⟩ := h
  obtain rfl := endsCaught_unique (h0 (max M N) (by omega)) (h1 (max M N) (by omega))
  have hz : (its.map Prod.fst).zip (its.map Prod.snd) = its := by
    clear h0 h1 h2 h3 h4 h5 h6
    induction its with
    | nil => rfl
    | cons a l ih => simp [ih]
  have hnd : (its.map Prod.fst).Nodup := by
    rw [List.Nodup, List.pairwise_map]
    exact h6.imp (fun h => h.1)
  refine ⟨its.map Prod.fst, by simp, h2, hnd, ?_, ?_, ?_⟩ <;> rw [hz]
  · exact h3
  · intro x hx
    rcases h4 x hx with h | ⟨e, he, h | h⟩
    · simp [Components.new] at h
    · have ho := h3 e he
      obtain ⟨r, o⟩ := e
      simp only at h ho
      subst h
      cases ho with
      | noRoot e _ => exact .inl ⟨_, he⟩
      | twice st _ _ => exact .inl ⟨_, he⟩
      | mute st _ _ => exact .inl ⟨_, he⟩
      | found st c _ _ _ hc _ _ =>
        exact .inr ⟨_, List.mem_map.2 ⟨_, he, rfl⟩, c, rfl, by rw [hc]; simp [discovered]⟩
    · exact .inr ⟨e.2, List.mem_map.2 ⟨e, he, rfl⟩, h⟩
  · exact h6.imp (fun h => h.2)

/-- **C96, without catching.**  Then `components` yields the graphs up to the first panic, and that panic; and ends if there is none. -/
theorem C96_uncaught (items : List (Out DefaultGraph)) (h : Components.CaughtRun g items) :
    (∃ comps : List DefaultGraph, items = comps.map .ok ∧ Components.Run g comps) ∨
    ∃ (comps : List DefaultGraph) (m : String) (rest : List (Out DefaultGraph)) (N : Nat),
      items = comps.map .ok ++ .panic m :: rest ∧ (m = "root not found" ∨ m = "traversal error" ∨ m = "unwrap") ∧
      ∀ fuel, N ≤ fuel → calls (Components.next g fuel) comps.length (Components.new g) = .ok (comps.map some) ∧
        calls (Components.next g fuel) (comps.length + 1) (Components.new g) = .panic m := by
  obtain ⟨roots, hlen, -, -, h3, -⟩ := C96_caught g hn hfin items h
  have hitem : ∀ o ∈ items, (∃ c, o = .ok c) ∨ ∃ m, o = .panic m ∧ (m = "root not found" ∨ m = "traversal error" ∨ m = "unwrap") := by
    intro o ho
    obtain ⟨i, hi, rfl⟩ := List.mem_iff_getElem.1 ho
    have hi' : i < roots.length := by omega
    have hz : (roots[i], items[i]) ∈ roots.zip items := by
      rw [List.mem_iff_getElem]
      exact ⟨i, by simp; omega, by simp⟩
    have hO := h3 _ hz
    simp only at hO
    generalize items[i] = o at hO
    cases hO with
    | noRoot e _ => exact .inr ⟨_, rfl, .inl rfl⟩
    | twice st _ _ => exact .inr ⟨_, rfl, .inr (.inl rfl)⟩
    | mute st _ _ => exact .inr ⟨_, rfl, .inr (.inr rfl)⟩
    | found st c _ _ _ hc _ _ => exact .inl ⟨c, rfl⟩
  have split : ∀ l : List (Out DefaultGraph), (∀ o ∈ l, (∃ c, o = .ok c) ∨ ∃ m, o = .panic m ∧ (m = "root not found" ∨ m = "traversal error" ∨ m = "unwrap")) →
      (∃ comps : List DefaultGraph, l = comps.map .ok) ∨ ∃ (comps : List DefaultGraph) (m : String) (rest : List (Out DefaultGraph)),
        l = comps.map .ok ++ .panic m :: rest ∧ (m = "root not found" ∨ m = "traversal error" ∨ m = "unwrap") := by
    intro l
    induction l with
    | nil => intro _; exact .inl ⟨[], rfl⟩
    | cons o l ih =>
      intro hl
      rcases hl o (by simp) with ⟨c, rfl⟩ | ⟨m, rfl, hm⟩
      · rcases ih (fun o ho => hl o (by simp [ho])) with ⟨cs, rfl⟩ | ⟨cs, m, rest, rfl, hm⟩
        · exact .inl ⟨c :: cs, rfl⟩
        · exact .inr ⟨c :: cs, m, rest, rfl, hm⟩
      · exact .inr ⟨[], m, l, rfl, hm⟩
  rcases split items hitem with ⟨comps, rfl⟩ | ⟨comps, m, rest, rfl, hm⟩
  · exact .inl ⟨comps, rfl, (C94_no_panic g comps).2 h⟩
  · right
    obtain ⟨N, hN⟩ := h
    refine ⟨comps, m, rest, N, rfl, hm, fun fuel hf => ?_⟩
    have h1 := hN fuel hf (comps.length + 1)
    have h2 := calls_panic_of_caught (Components.next_eq_left g fuel) (comps.map some) m (Components.new g) (by
      rw [List.length_map, h1]
      have e1 : List.take (comps.length + 1) (comps.map Out.ok ++ Out.panic m :: rest) = comps.map Out.ok ++ [Out.panic m] := by
        rw [List.take_append]; simp
      rw [e1]
      simp [Function.comp_def])
    simpa using h2

/-- **C96, no panic.**  If every node to which `nodes()` leads answers, and lists no neighbor twice, then `components` ends without a panic.
(Its graphs are described by `C96_caught`, through `C94_no_panic`.) -/
theorem C96_ends (hok : ∀ r ∈ g.nodes, ∀ v, g.LeadsTo r v → ∃ l, g.neighbors v = .ok l ∧ l.Nodup) :
    ∃! comps, Components.Run g comps := by
  obtain ⟨items, h, hu⟩ := C96_caught_ends g hn hfin
  obtain ⟨roots, hlen, h1, -, h3, -⟩ := C96_caught g hn hfin items h
  have hmem : ∀ o ∈ items, ∃ r ∈ g.nodes, Components.Outcome g r o := by
    intro o ho
    obtain ⟨i, hi, rfl⟩ := List.mem_iff_getElem.1 ho
    have hi' : i < roots.length := by omega
    have hz : (roots[i], items[i]) ∈ roots.zip items := by
      rw [List.mem_iff_getElem]
      exact ⟨i, by simp; omega, by simp⟩
    exact ⟨roots[i], h1.subset (List.getElem_mem _), h3 _ hz⟩
  have hpanic : ∀ r ∈ g.nodes, ∀ st, ¬ DepthFirst.PanicsAfter g r st "unwrap" := by
    intro r hr st hp
    obtain ⟨hb, d, hd, hc⟩ := hp
    obtain ⟨n, -, ⟨p, h5, h6⟩, h7, -⟩ := C76_dfs_fails g r st hb (by
      rintro ⟨d2, os, hd2, hc2⟩
      rw [hd] at hd2; injection hd2 with hd2; subst hd2
      rw [hc] at hc2; simp at hc2)
    have hp := ((C76_dfs_sound g r st hb).2.2 p h5).1
    obtain ⟨l, hl, -⟩ := hok r hr n (hp.tail h6)
    exact h7 l hl
  have honce : ∀ r ∈ g.nodes, ∀ st, DepthFirst.Run g r st → (st.map (fun s => (s.sid, s.tid))).Nodup := by
    intro r hr st hst
    obtain ⟨d, hd, he⟩ := hst
    have hb : DepthFirst.Begins g r st := ⟨d, hd, by rw [he st.length]; simp⟩
    rw [List.nodup_iff_count_le_one]
    rintro ⟨u, v⟩
    by_cases hm : (u, v) ∈ st.map (fun s => (s.sid, s.tid))
    · obtain ⟨s, hs, e⟩ := List.mem_map.1 hm
      have hsid : s.sid = u := congrArg Prod.fst e
      obtain ⟨pre, post, e2⟩ := List.append_of_mem hs
      have hd1 := ((C76_dfs_sound g r st hb).1 pre s post e2).2.1
      have hd2 : s.sid ∈ discovered r st := by
        rw [e2]
        simp only [discovered, List.filter_append, List.map_append, List.mem_cons, List.mem_append] at hd1 ⊢
        rcases hd1 with hd1 | hd1
        · exact .inl hd1
        · exact .inr (.inl hd1)
      obtain ⟨l, hl, hnd⟩ := hok r hr u (hsid ▸ ((C76_dfs_sound g r st hb).2.2 _ hd2).1)
      have h5 := (C76_dfs_once g r st hb).1 u v
      rw [GraphI.nbr_of_ok hl] at h5
      have h6 := List.nodup_iff_count_le_one.1 hnd v
      omega
    · rw [List.count_eq_zero.2 hm]; omega
  rcases C96_uncaught g hn hfin items h with ⟨comps, rfl, hr⟩ | ⟨comps, m, rest, N, rfl, -⟩
  · refine ⟨comps, hr, fun comps' hr' => ?_⟩
    have := hu _ ((C94_no_panic g comps').1 hr')
    exact List.map_injective_iff.2 (fun a b hab => by injection hab) this
  · exfalso
    obtain ⟨r, hr, ho⟩ := hmem (.panic m) (by simp)
    cases ho with
    | noRoot e he =>
      obtain ⟨l, hl, -⟩ := hok r hr r .refl
      rw [he] at hl; simp at hl
    | twice st hrun hdup =>
      rcases hrun with hrun | hrun
      · exact hdup (honce r hr st hrun)
      · exact hpanic r hr st hrun
    | mute st hp _ => exact hpanic r hr st hp

end

/-- 0 lists 1 twice; 2 lists 7, at which `neighbors` fails; `nodes()` lists 8, at which it fails too, and 3, twice; 3 and 4 list
each other. -/
def wildG : GraphI := { oneWay [(0, [1, 1]), (1, []), (2, [1, 7]), (3, [4]), (4, [3])] with nodes := [0, 2, 8, 3, 1, 3, 4] }

/-- On this graph each kind of outcome occurs. -/
theorem C96_example : (∀ v, (∃ l, wildG.neighbors v = .ok l) ∨ ∃ e, wildG.neighbors v = .err e) ∧
    (∀ r ∈ wildG.nodes, ∃ L : List Nat, ∀ v, wildG.LeadsTo r v → v ∈ L) ∧
    ∃ c c' : DefaultGraph, Components.CaughtRun wildG
      [.panic "traversal error", .panic "unwrap", .panic "root not found", .ok c, .ok c'] ∧ c.nodes = [3, 4] ∧ c'.nodes = [1] := by
  refine ⟨?_, ?_, ⟨[(4, 1), (3, 0)], [[4], [3]], [3, 4], [(3, 4)]⟩, ⟨[(1, 0)], [[]], [1], []⟩,
    Components.caughtRun_of (N := 12) (by decide +kernel) (by simp), rfl, rfl⟩
  · intro v
    unfold wildG oneWay
    simp only
    split
    · exact .inl ⟨_, rfl⟩
    · exact .inr ⟨_, rfl⟩
  · intro r hr
    refine ⟨[0, 1, 2, 3, 4, 7, 8], fun v hv => oneWay_leadsTo [0, 1, 2, 3, 4, 7, 8] ?_ (by decide +kernel) v hv⟩
    have : ∀ r ∈ wildG.nodes, r ∈ [0, 1, 2, 3, 4, 7, 8] := by decide +kernel
    exact this r hr

/-- And there is a graph as in `C96_ends` that is neither undirected nor lists its nodes once. -/
example : ∃ g : GraphI, (∀ v, (∃ l, g.neighbors v = .ok l) ∨ ∃ e, g.neighbors v = .err e) ∧
    (∀ r ∈ g.nodes, ∃ L : List Nat, ∀ v, g.LeadsTo r v → v ∈ L) ∧
    (∀ r ∈ g.nodes, ∀ v, g.LeadsTo r v → ∃ l, g.neighbors v = .ok l ∧ l.Nodup) ∧ ¬ g.nodes.Nodup ∧ g.nbr 0 = [1, 2] ∧ g.nbr 1 = [] := by
  let g : GraphI := { oneWay [(0, [1, 2]), (1, []), (2, [2, 1])] with nodes := [1, 0, 1] }
  have hl : ∀ r ∈ g.nodes, ∀ v, g.LeadsTo r v → v ∈ [0, 1, 2] := by
    intro r hr v hv
    refine oneWay_leadsTo [0, 1, 2] ?_ (by decide +kernel) v hv
    have : ∀ r ∈ g.nodes, r ∈ [0, 1, 2] := by decide +kernel
    exact this r hr
  refine ⟨g, ?_, fun r hr => ⟨_, hl r hr⟩, ?_, by decide +kernel, by decide +kernel, by decide +kernel⟩
  · intro v
    change (∃ l, (oneWay [(0, [1, 2]), (1, []), (2, [2, 1])]).neighbors v = .ok l) ∨ _
    simp only [g, oneWay]
    split
    · exact .inl ⟨_, rfl⟩
    · exact .inr ⟨_, rfl⟩
  · intro r hr v hv
    have := hl r hr v hv
    simp only [List.mem_cons, List.not_mem_nil, or_false] at this
    rcases this with rfl | rfl | rfl
    · exact ⟨[1, 2], rfl, by decide⟩
    · exact ⟨[], rfl, by decide⟩
    · exact ⟨[2, 1], rfl, by decide⟩

end Gamma
