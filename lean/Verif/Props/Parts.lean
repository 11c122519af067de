import Verif.Props.Levels
import Verif.Proofs.LiftSpec
/-
Properties C63–C66: the parts `maximum_matching` is made of (`Forest`, `Marker`, `Blossom`), each on its own, for every
history of calls.
-/
namespace Gamma
open Pairing

/-! ### C63: `Forest` -/

namespace Forest

theorem build_snoc {calls : List (Option Nat × Nat)} {c : Option Nat × Nat} {f' : Forest} :
    build (calls ++ [c]) = .ok f' ↔ ∃ f, build calls = .ok f ∧ f.call c = .ok f' := by
  unfold build
  rw [List.foldlM_append]
  simp only [List.foldlM_cons, List.foldlM_nil]
  show (Out.bind _ _) = _ ↔ _
  constructor
  · intro h
    have h' : (List.foldlM call new calls >>= fun f => (f.call c >>= fun x => Out.ok x)) = .ok f' := h
    rw [Out.bind_eq_ok] at h'
    obtain ⟨f, hf, h'⟩ := h'
    rw [Out.bind_eq_ok] at h'
    obtain ⟨f2, h2, h'⟩ := h'
    cases h'
    exact ⟨f, hf, h2⟩
  · rintro ⟨f, hf, h2⟩
    show (List.foldlM call new calls >>= fun f => (f.call c >>= fun x => Out.ok x)) = .ok f'
    rw [hf, Out.ok_bind, h2, Out.ok_bind]

/-- What one call does. -/
theorem call_eq (f : Forest) (o : Option Nat) (x : Nat) {f' : Forest} (h : f.call (o, x) = .ok f') :
    f.parents.get x = none ∧ f'.nodes = f.nodes ++ [x] ∧ ∃ e : Entry, e.parent = o ∧
      (∀ y, f'.parents.get y = if y = x then some e else f.parents.get y) ∧
      (o = none → e.even = true) ∧ (∀ q, o = some q → ∃ eq : Entry, f.parents.get q = some eq ∧ e.even = !eq.even) := by
  cases o with
  | none =>
    simp only [call, addRoot] at h
    split at h
    · rename_i hx
      cases h
      exact ⟨hx, rfl, _, rfl, fun y => HMap.get_insert _ _ _ _, fun _ => rfl, by simp⟩
    · cases h
  | some q =>
    simp only [call, addEdge] at h
    split at h
    · cases h
    · rename_i eq hq
      split at h
      · rename_i hx
        cases h
        refine ⟨hx, rfl, _, rfl, fun y => HMap.get_insert _ _ _ _, by simp, ?_⟩
        rintro q' e; cases e
        exact ⟨eq, hq, rfl⟩
      · cases h

theorem pathLoop_acc (f : Forest) (pre : List Nat) : ∀ n o acc r, pathLoop f n o acc = .ok r →
    pathLoop f n o (pre ++ acc) = .ok (pre ++ r)
  | 0, o, acc, r, h => by simp [pathLoop] at h
  | n + 1, none, acc, r, h => by simp [pathLoop] at h ⊢; exact h
  | n + 1, some x, acc, r, h => by
    simp only [pathLoop] at h ⊢
    split at h
    · cases h
    · rw [List.append_assoc]
      exact pathLoop_acc f pre n _ _ _ h

theorem pathLoop_mono {f f' : Forest} (hx : ∀ x e, f.parents.get x = some e → f'.parents.get x = some e) :
    ∀ n o acc r, pathLoop f n o acc = .ok r → pathLoop f' n o acc = .ok r
  | 0, o, acc, r, h => by simp [pathLoop] at h
  | n + 1, none, acc, r, h => by simpa [pathLoop] using h
  | n + 1, some x, acc, r, h => by
    simp only [pathLoop] at h ⊢
    split at h
    · cases h
    · rename_i e he
      rw [hx x e he]
      exact pathLoop_mono hx n _ _ _ h

theorem path_mono {f f' : Forest} (hx : ∀ x e, f.parents.get x = some e → f'.parents.get x = some e) {n x : Nat}
    {l : List Nat} (h : f.path n x = .ok (some l)) : f'.path n x = .ok (some l) := by
  unfold path at h ⊢
  split at h
  · simp at h
  · rename_i e he
    rw [hx x e he]
    rw [Out.bind_eq_ok] at h
    obtain ⟨r, h1, h2⟩ := h
    cases h2
    simp only
    rw [pathLoop_mono hx _ _ _ _ h1]; rfl

structure Inv (calls : List (Option Nat × Nat)) (f : Forest) : Prop where
  nodes : f.nodes = calls.map Prod.snd
  keys : ∀ x, f.parents.get x = none ↔ x ∉ calls.map Prod.snd
  paths : ∀ x e, f.parents.get x = some e → ∃ l, RootPath calls x l ∧ (∀ y ∈ l, y ∈ calls.map Prod.snd) ∧
    (e.even = true ↔ l.length % 2 = 1) ∧ ∀ fuel, l.length ≤ fuel → f.path fuel x = .ok (some l)

theorem RootPath.mono {calls more : List (Option Nat × Nat)} {x : Nat} {l : List Nat} (h : RootPath calls x l) :
    RootPath (calls ++ more) x l := by
  obtain ⟨h1, h2, h3, r, h4, h5⟩ := h
  exact ⟨h1, h2, h3.imp (fun a b hab => List.mem_append_left _ hab), r, h4, List.mem_append_left _ h5⟩

theorem inv_build {calls : List (Option Nat × Nat)} {f : Forest} (h : build calls = .ok f) : Inv calls f := by
  induction calls using List.reverseRecOn generalizing f with
  | nil =>
    have : f = new := by simp [build] at h; exact h.symm
    subst this
    exact ⟨rfl, by simp [new], by simp [new]⟩
  | append_singleton calls c ih =>
    obtain ⟨f0, h0, hc⟩ := build_snoc.1 h
    have i := ih h0
    obtain ⟨o, x⟩ := c
    obtain ⟨hx, hn, e, rfl, hg, he1, he2⟩ := call_eq f0 o x hc
    have hext : ∀ y e', f0.parents.get y = some e' → f.parents.get y = some e' := by
      intro y e' hy
      rw [hg, if_neg (by rintro rfl; rw [hx] at hy; cases hy)]; exact hy
    refine ⟨by simp [hn, i.nodes], ?_, ?_⟩
    · intro y
      rw [hg, List.map_append, List.mem_append]
      by_cases hy : y = x
      · simp [hy]
      · simp only [hy, if_false, i.keys, List.map_cons, List.map_nil, List.mem_singleton, or_false]
    · intro y e' hy
      rw [hg] at hy
      by_cases hyx : y = x
      · subst hyx
        rw [if_pos rfl] at hy; cases hy
        cases ho : e.parent with
        | none =>
          refine ⟨[y], ⟨rfl, by simp, .singleton _, y, rfl, by simp [ho]⟩, by simp, by simp [he1 ho], ?_⟩
          intro fuel hf
          obtain ⟨n, rfl⟩ : ∃ n, fuel = n + 1 := ⟨fuel - 1, by simp at hf; omega⟩
          simp [path, hg, ho, pathLoop]
        | some q =>
          obtain ⟨eq, hq, hev⟩ := he2 q ho
          obtain ⟨l, hl1, hl2, hl3, hl4⟩ := i.paths q eq hq
          have hynew : y ∉ calls.map Prod.snd := (i.keys y).1 hx
          obtain ⟨l', rfl⟩ : ∃ l', l = q :: l' := by
            obtain ⟨hh, -⟩ := hl1
            cases l with
            | nil => simp at hh
            | cons a l' => simp at hh; exact ⟨l', by rw [hh]⟩
          refine ⟨y :: q :: l', ?_, ?_, ?_, ?_⟩
          · have := RootPath.mono (more := [(some q, y)]) hl1
            obtain ⟨-, h2, h3, r, h4, h5⟩ := this
            refine ⟨rfl, List.nodup_cons.2 ⟨fun hm => hynew (hl2 y hm), h2⟩, ?_, r, ?_, by simpa using h5⟩
            · rw [List.isChain_cons_cons]; exact ⟨by simp, h3⟩
            · rw [List.getLast?_cons_cons]; exact h4
          · intro z hz
            rw [List.map_append, List.mem_append]
            rcases List.mem_cons.1 hz with rfl | hz
            · right; simp
            · exact .inl (hl2 z hz)
          · rw [hev]
            simp only [List.length_cons] at hl3 ⊢
            rw [Bool.not_eq_true']
            constructor
            · intro h1
              have : ¬ eq.even = true := by simp [h1]
              rw [hl3] at this; omega
            · intro h1
              have : ¬ eq.even = true := by rw [hl3]; omega
              simpa using this
          · intro fuel hf
            obtain ⟨n, rfl⟩ : ∃ n, fuel = n + 1 := ⟨fuel - 1, by simp at hf; omega⟩
            have h1 := path_mono hext (hl4 n (by simp at hf ⊢; omega))
            have hq' := hext q eq hq
            unfold path at h1 ⊢
            rw [hq'] at h1
            rw [hg y, if_pos rfl]
            simp only at h1 ⊢
            rw [Out.bind_eq_ok] at h1
            obtain ⟨r, h2, h3⟩ := h1
            simp at h3; subst h3
            rw [ho, pathLoop, hq']
            simp only
            have := pathLoop_acc f [y] n _ _ _ h2
            rw [this]; rfl
      · rw [if_neg hyx] at hy
        obtain ⟨l, h1, h2, h3, h4⟩ := i.paths y e' hy
        refine ⟨l, RootPath.mono h1, fun z hz => ?_, h3, fun fuel hf => path_mono hext (h4 fuel hf)⟩
        rw [List.map_append]; exact List.mem_append_left _ (h2 z hz)

end Forest

/-- **C63, calls.**  On a forest built by any calls, `add_root(x)` panics exactly when `x` was added before; `add_edge(q, x)` panics
exactly when `q` was not added before (that is what it says even if `x` was) or `x` was. -/
theorem C63_forest_calls (calls : List (Option Nat × Nat)) (f : Forest) (h : Forest.build calls = .ok f) :
    (∀ x, x ∉ calls.map Prod.snd → ∃ f', f.addRoot x = .ok f') ∧
    (∀ x, x ∈ calls.map Prod.snd → f.addRoot x = .panic "duplicate node") ∧
    (∀ q x, q ∈ calls.map Prod.snd → x ∉ calls.map Prod.snd → ∃ f', f.addEdge q x = .ok f') ∧
    (∀ q x, q ∉ calls.map Prod.snd → f.addEdge q x = .panic "missing parent") ∧
    (∀ q x, q ∈ calls.map Prod.snd → x ∈ calls.map Prod.snd → f.addEdge q x = .panic "duplicate node") := by
  have i := Forest.inv_build h
  have key : ∀ x, x ∈ calls.map Prod.snd → ∃ e, HMap.get f.parents x = some e := by
    intro x hx
    cases hg : HMap.get f.parents x with
    | none => exact absurd hx ((i.keys x).1 hg)
    | some e => exact ⟨e, rfl⟩
  refine ⟨fun x hx => ?_, fun x hx => ?_, fun q x hq hx => ?_, fun q x hq => ?_, fun q x hq hx => ?_⟩
  · exact ⟨_, by simp only [Forest.addRoot, (i.keys x).2 hx]; rfl⟩
  · obtain ⟨e, he⟩ := key x hx
    simp only [Forest.addRoot, he]
  · obtain ⟨e, he⟩ := key q hq
    exact ⟨_, by simp only [Forest.addEdge, he, (i.keys x).2 hx]; rfl⟩
  · simp only [Forest.addEdge, (i.keys q).2 hq]
  · obtain ⟨e, he⟩ := key q hq
    obtain ⟨e', he'⟩ := key x hx
    simp only [Forest.addEdge, he, he']

/-- **C63, paths.**  In a forest built by any calls, `path(x)` returns (it neither panics nor runs for ever): `None` exactly when `x`
was not added, otherwise the path from `x` to its root along the edges that were added; `even_nodes()` also returns without a panic
and gives, in the order they were added, the nodes whose path has an odd number of nodes. -/
theorem C63_forest_paths (calls : List (Option Nat × Nat)) (f : Forest) (h : Forest.build calls = .ok f) :
    (∀ x, x ∉ calls.map Prod.snd → ∀ fuel, f.path fuel x = .ok none) ∧
    (∀ x, x ∈ calls.map Prod.snd → ∃ l, RootPath calls x l ∧ ∀ fuel, l.length ≤ fuel → f.path fuel x = .ok (some l)) ∧
    ∃ even, f.evenNodes = .ok even ∧ even.Sublist (calls.map Prod.snd) ∧
      ∀ x l, x ∈ calls.map Prod.snd → RootPath calls x l → (x ∈ even ↔ l.length % 2 = 1) := by
  have i := Forest.inv_build h
  have key : ∀ x, x ∈ calls.map Prod.snd → ∃ e, HMap.get f.parents x = some e := by
    intro x hx
    cases hg : HMap.get f.parents x with
    | none => exact absurd hx ((i.keys x).1 hg)
    | some e => exact ⟨e, rfl⟩
  have hev : ∀ x ∈ f.nodes, f.isEven x = .ok ((HMap.get f.parents x).any (fun e => e.even)) := by
    intro x hx
    obtain ⟨e, he⟩ := key x (i.nodes ▸ hx)
    simp only [Forest.isEven, he, Option.any_some]
  refine ⟨fun x hx fuel => ?_, fun x hx => ?_, _, Forest.evenAmong_eq hev, ?_, fun x l hx hl => ?_⟩
  · simp only [Forest.path, (i.keys x).2 hx]
  · obtain ⟨e, he⟩ := key x hx
    obtain ⟨l, h1, -, -, h4⟩ := i.paths x e he
    exact ⟨l, h1, h4⟩
  · rw [i.nodes]; exact List.filter_sublist
  · obtain ⟨e, he⟩ := key x hx
    obtain ⟨l', h1, -, h3, h4⟩ := i.paths x e he
    have hnd : (calls.map Prod.snd).Nodup := by
      clear * - h
      induction calls using List.reverseRecOn generalizing f with
      | nil => simp
      | append_singleton calls c ih =>
        obtain ⟨f0, h0, hc⟩ := Forest.build_snoc.1 h
        obtain ⟨o, x⟩ := c
        obtain ⟨hx, -⟩ := Forest.call_eq f0 o x hc
        rw [List.map_append, List.nodup_append]
        refine ⟨ih f0 h0, by simp, ?_⟩
        intro a ha b hb; simp at hb; subst hb; rintro rfl
        exact ((Forest.inv_build h0).keys _).1 hx ha
    have huniq : ∀ a o o', (o, a) ∈ calls → (o', a) ∈ calls → o = o' := by
      intro a o o' h1 h2
      have := List.inj_on_of_nodup_map hnd h1 h2 rfl
      simpa using this
    have : ∀ (l l' : List Nat) x, RootPath calls x l → RootPath calls x l' → l = l' := by
      intro l
      induction l with
      | nil => intro l' x h1; simp [RootPath] at h1
      | cons a l ih =>
        intro l' x h1 h2
        obtain ⟨a1, a2, a3, r, a4, a5⟩ := h1
        obtain ⟨b1, b2, b3, r', b4, b5⟩ := h2
        cases l' with
        | nil => simp at b1
        | cons a' l' =>
          simp at a1 b1; subst a1; subst b1
          cases l with
          | nil =>
            simp at a4; subst a4
            cases l' with
            | nil => rfl
            | cons b l' =>
              rw [List.isChain_cons_cons] at b3
              have := huniq _ _ _ a5 b3.1
              simp at this
          | cons c l =>
            rw [List.isChain_cons_cons] at a3
            cases l' with
            | nil =>
              simp at b4; subst b4
              have := huniq _ _ _ b5 a3.1
              simp at this
            | cons b l' =>
              rw [List.isChain_cons_cons] at b3
              have := huniq _ _ _ a3.1 b3.1
              simp at this; subst this
              rw [List.getLast?_cons_cons] at a4 b4
              rw [ih (c :: l') c ⟨rfl, a2.tail, a3.2, r, a4, a5⟩ ⟨rfl, b2.tail, b3.2, r', b4, b5⟩]
    rw [this l l' x hl h1, ← h3, List.mem_filter, i.nodes, he, Option.any_some]
    exact ⟨fun h => h.2, fun h => ⟨hx, h⟩⟩

/-- **C63, growing.**  Later calls change no path. -/
theorem C63_forest_grows (calls more : List (Option Nat × Nat)) (f f' : Forest) (h : Forest.build calls = .ok f)
    (h' : Forest.build (calls ++ more) = .ok f') (fuel x : Nat) (l : List Nat) (hp : f.path fuel x = .ok (some l)) :
    f'.path fuel x = .ok (some l) := by
  induction more using List.reverseRecOn generalizing f' with
  | nil => rw [List.append_nil, h] at h'; cases h'; exact hp
  | append_singleton more c ih =>
    rw [← List.append_assoc] at h'
    obtain ⟨f1, h1, hc⟩ := Forest.build_snoc.1 h'
    obtain ⟨o, y⟩ := c
    obtain ⟨hy, -, e, -, hg, -⟩ := Forest.call_eq f1 o y hc
    refine Forest.path_mono ?_ (ih f1 h1)
    intro z e' hz
    rw [hg, if_neg (by rintro rfl; rw [hy] at hz; cases hz)]; exact hz

/-- Two trees: 4 with the branch 7, 2, and 5. -/
example : ∃ f, Forest.build [(none, 4), (some 4, 7), (none, 5), (some 7, 2)] = .ok f ∧
    f.path 3 2 = .ok (some [2, 7, 4]) ∧ f.path 3 5 = .ok (some [5]) ∧ f.path 3 9 = .ok none ∧ f.evenNodes = .ok [4, 5, 2] ∧
    f.addEdge 9 4 = .panic "missing parent" ∧ f.addEdge 2 4 = .panic "duplicate node" :=
  ⟨_, rfl, by decide +kernel, by decide +kernel, by decide +kernel, by decide +kernel, by decide +kernel, by decide +kernel⟩

/-! ### C64: `Marker` -/

theorem Marker.build_snoc {calls : List (Nat ⊕ (Nat × Nat))} {c : Nat ⊕ (Nat × Nat)} :
    build (calls ++ [c]) = (build calls >>= fun m => m.call c) := by
  unfold build
  rw [foldlM_append_out]
  cases List.foldlM call new calls with
  | ok m =>
    simp only [Out.ok_bind, List.foldlM_cons, List.foldlM_nil]
    cases m.call c <;> rfl
  | err e => rfl
  | panic s => rfl
  | timeout => rfl

theorem Marker.markNode_eq (m : Marker) (x : Nat) :
    m.markNode x = if m.hasNode x = true then .panic "node marked twice" else .ok { m with nodes := x :: m.nodes } := rfl

theorem Marker.markEdge_twice {m : Marker} {s t : Nat} (h : m.hasEdge s t = true) :
    m.markEdge s t = .panic "edge marked twice" := by
  unfold markEdge markEdgeFwd
  rw [hasEdge_eq] at h
  cases hg : HMap.get m.edges s with
  | none => rw [hg] at h; simp at h
  | some l => rw [hg] at h; simp at h; simp [h]

/-- **C64.**  After any calls that did not panic, `has_node(x)` tells whether `mark_node(x)` was called and `has_edge(s, t)` whether
`mark_edge(s, t)` or `mark_edge(t, s)` was; marking a marked node or edge (in either direction) panics, marking another one
does not. -/
theorem C64_marker (calls : List (Nat ⊕ (Nat × Nat))) (m : Marker) (h : Marker.build calls = .ok m) :
    (∀ x, m.hasNode x = true ↔ .inl x ∈ calls) ∧
    (∀ s t, m.hasEdge s t = true ↔ .inr (s, t) ∈ calls ∨ .inr (t, s) ∈ calls) ∧
    (∀ x, .inl x ∈ calls → m.markNode x = .panic "node marked twice") ∧
    (∀ x, .inl x ∉ calls → ∃ m', m.markNode x = .ok m') ∧
    (∀ s t, .inr (s, t) ∈ calls ∨ .inr (t, s) ∈ calls → m.markEdge s t = .panic "edge marked twice") ∧
    (∀ s t, .inr (s, t) ∉ calls → .inr (t, s) ∉ calls → ∃ m', m.markEdge s t = .ok m') := by
  have key : (∀ x, m.hasNode x = true ↔ .inl x ∈ calls) ∧
      (∀ s t, m.hasEdge s t = true ↔ .inr (s, t) ∈ calls ∨ .inr (t, s) ∈ calls) := by
    induction calls using List.reverseRecOn generalizing m with
    | nil =>
      have : m = Marker.new := by simp [Marker.build] at h; exact h.symm
      subst this
      simp [Marker.new, Marker.hasNode, Marker.hasEdge]
    | append_singleton calls c ih =>
      rw [Marker.build_snoc, Out.bind_eq_ok] at h
      obtain ⟨m0, h0, hc⟩ := h
      obtain ⟨i1, i2⟩ := ih m0 h0
      rcases c with x | ⟨s, t⟩
      · simp only [Marker.call, Marker.markNode_eq] at hc
        split at hc
        · cases hc
        · cases hc
          refine ⟨fun y => ?_, fun a b => ?_⟩
          · rw [List.mem_append, ← i1]
            simp [Marker.hasNode, or_comm]
          · rw [List.mem_append, List.mem_append]
            have : Marker.hasEdge { m0 with nodes := x :: m0.nodes } a b = m0.hasEdge a b := rfl
            rw [this, i2]; simp
      · simp only [Marker.call] at hc
        cases hh : m0.hasEdge s t with
        | true => rw [Marker.markEdge_twice hh] at hc; cases hc
        | false =>
          obtain ⟨m1, e1, n1, h1⟩ := Marker.markEdge_ok hh
          rw [e1] at hc; cases hc
          refine ⟨fun y => ?_, fun a b => ?_⟩
          · rw [List.mem_append, ← i1]
            simp [Marker.hasNode, n1]
          · rw [h1, i2, List.mem_append, List.mem_append]
            simp only [List.mem_singleton, Sum.inr.injEq, Prod.mk.injEq]
            tauto
  refine ⟨key.1, key.2, fun x hx => ?_, fun x hx => ?_, fun s t hst => ?_, fun s t h1 h2 => ?_⟩
  · rw [Marker.markNode_eq, if_pos ((key.1 x).2 hx)]
  · exact ⟨_, by rw [Marker.markNode_eq, if_neg (fun h => hx ((key.1 x).1 h))]⟩
  · exact Marker.markEdge_twice ((key.2 s t).2 hst)
  · have hf : m.hasEdge s t = false := by
      rw [Bool.eq_false_iff]; intro h
      rcases (key.2 s t).1 h with h | h
      · exact h1 h
      · exact h2 h
    obtain ⟨m', e, -⟩ := Marker.markEdge_ok hf
    exact ⟨m', e⟩

example : ∃ m, Marker.build [.inr (4, 7), .inl 4, .inr (4, 2)] = .ok m ∧ m.hasEdge 7 4 = true ∧ m.hasEdge 7 2 = false ∧
    m.hasNode 4 = true ∧ m.hasNode 7 = false ∧ m.markEdge 2 4 = .panic "edge marked twice" :=
  ⟨_, rfl, by decide +kernel, by decide +kernel, by decide +kernel, by decide +kernel, by decide +kernel⟩

theorem mem_takeWhile_sat {P : Nat → Bool} : ∀ {l : List Nat} {x : Nat}, x ∈ l.takeWhile P → P x = true
  | [], x, h => by simp at h
  | a :: l, x, h => by
    rw [List.takeWhile_cons] at h
    split at h
    · rcases List.mem_cons.1 h with rfl | h
      · assumption
      · exact mem_takeWhile_sat h
    · simp at h

/-! ### C65: making and contracting a blossom -/

/-- **C65, making.**  `Blossom::new` of two paths panics exactly when they have no node in common; otherwise the blossom goes along
the first path to its first node on the second one, and back along the second one. -/
theorem C65_blossom_new (id : Nat) (left right : List Nat) :
    ((∀ x ∈ left, x ∉ right) → Blossom.new id left right = .panic "blossom root not found") ∧
    (∀ l1 base l2 r1 r2, left = l1 ++ base :: l2 → right = r1 ++ base :: r2 → (∀ x ∈ l1, x ∉ right) → base ∉ r1 →
      Blossom.new id left right = .ok { id := id, path := l1 ++ base :: r1.reverse }) ∧
    ((∃ x ∈ left, x ∈ right) → ∃ l1 base l2 r1 r2, left = l1 ++ base :: l2 ∧ right = r1 ++ base :: r2 ∧
      (∀ x ∈ l1, x ∉ right) ∧ base ∉ r1) := by
  refine ⟨?_, ?_, ?_⟩
  · intro h
    have : ∀ (L pre : List Nat), (∀ x ∈ L, x ∉ right) → Blossom.newLoop right pre L = .panic "blossom root not found" := by
      intro L
      induction L with
      | nil => intro pre _; rfl
      | cons a L ih =>
        intro pre hL
        rw [Blossom.newLoop]
        have : right.contains a = false := by simpa using hL a (by simp)
        rw [this]
        exact ih _ (fun x hx => hL x (by simp [hx]))
    rw [Blossom.new, this left [] h]; rfl
  · intro l1 base l2 r1 r2 e1 e2 h1 h2
    have key : ∀ (L pre : List Nat), (∀ x ∈ L, x ∉ right) → Blossom.newLoop right pre (L ++ base :: l2) =
        .ok ((pre ++ L) ++ base :: (right.takeWhile (fun x => x != base)).reverse) := by
      intro L
      induction L with
      | nil =>
        intro pre _
        rw [List.nil_append, Blossom.newLoop]
        have : right.contains base = true := by rw [e2]; simp
        rw [this]; simp
      | cons a L ih =>
        intro pre hL
        rw [List.cons_append, Blossom.newLoop]
        have : right.contains a = false := by simpa using hL a (by simp)
        rw [this]
        simp only [Bool.false_eq_true, if_false]
        rw [ih _ (fun x hx => hL x (by simp [hx]))]
        simp
    rw [Blossom.new, e1, key l1 [] h1]
    have : right.takeWhile (fun x => x != base) = r1 := by
      rw [e2, List.takeWhile_append_of_pos]
      · simp
      · intro a ha
        simp only [bne_iff_ne, ne_eq]
        rintro rfl; exact h2 ha
    simp [this]
  · intro h
    obtain ⟨l1, base, l2, e1, h1, h2, -⟩ := newLoop_ok right left [] h
    obtain ⟨r2, e2⟩ := takeWhile_split h2
    exact ⟨l1, base, l2, _, r2, e1, e2, h1, fun hm => by simpa using mem_takeWhile_sat hm⟩

/-- **C65, contracting the graph.**  `contract_graph` fails exactly when the id of the blossom is a node outside it.  Otherwise the
result is a graph with the id first and then the nodes outside the blossom in their order; two nodes outside are adjacent as
before, the id is adjacent to the nodes outside that were adjacent to a node of the blossom, and not to itself. -/
theorem C65_contract_graph (g : GraphI) (hg : g.Lawful) (he : g.edges.Nodup) (b : Blossom) :
    (b.id ∈ g.nodes ∧ b.id ∉ b.path → b.contractGraph g = .err (.duplicateNode b.id)) ∧
    (¬ (b.id ∈ g.nodes ∧ b.id ∉ b.path) → ∃ r, b.contractGraph g = .ok r ∧ r.Reachable ∧
      r.nodes = b.id :: g.nodes.filter (fun x => !b.path.contains x) ∧
      (∀ x y, x ∈ g.nodes → x ∉ b.path → y ∈ g.nodes → y ∉ b.path → x ≠ y → (r.toI.Adj x y ↔ g.Adj x y)) ∧
      (∀ y, y ∈ g.nodes → y ∉ b.path → (r.toI.Adj b.id y ↔ ∃ a ∈ b.path, g.Adj a y)) ∧
      ¬ r.toI.Adj b.id b.id) := by
  constructor
  · rintro ⟨h1, h2⟩
    exact Blossom.contractGraph_err hg h1 h2 rfl
  · intro hfree
    have hid : Blossom.FreeId g b := by
      intro v hv hb e
      subst e; exact hfree ⟨hv, hb⟩
    obtain ⟨r, e, hr⟩ := Blossom.contractGraph_ok hg he hid
    refine ⟨r, e, hr.reach, hr.nodes, ?_, ?_, ?_⟩
    · intro x y hx hxb hy hyb hne
      rw [hr.adj_iff hg hid hne]
      constructor
      · rintro ⟨a, c, hac, e1, e2⟩
        rw [Blossom.Shrunk.preimage (hid x hx hxb) e1, Blossom.Shrunk.preimage (hid y hy hyb) e2] at hac
        exact hac
      · intro ha
        exact ⟨x, y, ha, kap_out hxb, kap_out hyb⟩
    · intro y hy hyb
      rw [hr.adj_iff hg hid (hid y hy hyb).symm]
      constructor
      · rintro ⟨a, c, hac, e1, e2⟩
        rw [Blossom.Shrunk.preimage (hid y hy hyb) e2] at hac
        exact ⟨a, (hid.kap_eq_id (hg.adj_src hac)).1 e1, hac⟩
      · rintro ⟨a, ha, hac⟩
        exact ⟨a, y, hac, kap_in ha, kap_out hyb⟩
    · intro ha
      exact (hr.loop hg hid ha).1 rfl

/-- **C65, contracting the pairing.**  If the nodes of the blossom are paired among themselves except one, the base, then in the
contracted pairing the nodes outside the blossom are paired with each other as before, and the id is paired with the mate the base
had, if any; in every hash iteration order.  It is a matching of the contracted graph. -/
theorem C65_contract_pairing (g : GraphI) (hg : g.Lawful) (he : g.edges.Nodup) (p : Pairing) (hp : p.Matches g) (b : Blossom)
    (hid : ¬ (b.id ∈ g.nodes ∧ b.id ∉ b.path)) (hnd : b.path.Nodup) (hsub : ∀ x ∈ b.path, x ∈ g.nodes) (base : Nat)
    (hbase : base ∈ b.path) (hout : ∀ y, p.mate base = .ok y → y ∉ b.path)
    (hin : ∀ x ∈ b.path, x ≠ base → ∃ y ∈ b.path, p.mate x = .ok y) (ord : HashOrder) (ho : ord.Valid) :
    (∃ r, b.contractGraph g = .ok r ∧ (b.contractPairing ord p).Matches r.toI) ∧
    (∀ x y, x ∈ g.nodes → x ∉ b.path → y ∈ g.nodes → y ∉ b.path →
      ((b.contractPairing ord p).mate x = .ok y ↔ p.mate x = .ok y)) ∧
    (∀ y, y ∈ g.nodes → y ∉ b.path → ((b.contractPairing ord p).mate b.id = .ok y ↔ p.mate base = .ok y)) ∧
    (∀ x y, (b.contractPairing ord p).mate x = .ok y →
      (x = b.id ∨ (x ∈ g.nodes ∧ x ∉ b.path)) ∧ (y = b.id ∨ (y ∈ g.nodes ∧ y ∉ b.path))) := by
  have hfree : Blossom.FreeId g b := by
    intro v hv hb e
    subst e; exact hid ⟨hv, hb⟩
  have hfl : Flower g p b.path base :=
    ⟨hnd, hsub, hbase, fun y hy => hout y (mate_eq_ok.2 hy), fun x hx hne => by
      obtain ⟨y, h1, h2⟩ := hin x hx hne
      exact ⟨y, h1, mate_eq_ok.1 h2⟩⟩
  obtain ⟨r, e, hr⟩ := Blossom.contract_ok ho hg he hp hfree hfl
  refine ⟨⟨r, e, hr.matches'⟩, ?_, ?_, ?_⟩
  · intro x y hx hxb hy hyb
    rw [mate_eq_ok, mate_eq_ok, hr.get']
    constructor
    · rintro ⟨-, a, c, hac, e1, e2⟩
      rw [Blossom.Shrunk.preimage (hfree x hx hxb) e1, Blossom.Shrunk.preimage (hfree y hy hyb) e2] at hac
      exact hac
    · intro ha
      exact ⟨hp.symmetric.ne ha, x, y, ha, kap_out hxb, kap_out hyb⟩
  · intro y hy hyb
    rw [mate_eq_ok, mate_eq_ok, hr.get']
    constructor
    · rintro ⟨-, a, c, hac, e1, e2⟩
      rw [Blossom.Shrunk.preimage (hfree y hy hyb) e2] at hac
      have ha := (hfree.kap_eq_id (hp.mem_left hg hac)).1 e1
      have : a = base := hfl.base_of_out ha (fun z hz => by rw [hac] at hz; cases hz; exact hyb)
      rw [← this]; exact hac
    · intro ha
      exact ⟨(hfree y hy hyb).symm, base, y, ha, kap_in hbase, kap_out hyb⟩
  · intro x y hxy
    obtain ⟨-, a, c, hac, e1, e2⟩ := (hr.get' x y).1 (mate_eq_ok.1 hxy)
    have key : ∀ a x, a ∈ g.nodes → kap b a = x → x = b.id ∨ (x ∈ g.nodes ∧ x ∉ b.path) := by
      intro a x ha e
      by_cases hab : a ∈ b.path
      · rw [kap_in hab] at e; exact .inl e.symm
      · rw [kap_out hab] at e; subst e; exact .inr ⟨ha, hab⟩
    exact ⟨key a x (hp.mem_left hg hac) e1, key c y (hp.mem_right hg hac) e2⟩

/-! ### C66: lifting a path -/

theorem PathIn.iff {g : GraphI} {l : List Nat} : PathIn g l ↔ Blossom.IsPath g l :=
  ⟨fun ⟨a, b, c, d⟩ => ⟨a, b, c, d⟩, fun h => ⟨h.ne, h.nodup, h.chain, h.mem⟩⟩

theorem BlossomIn.shrunk {g : GraphI} (hg : g.Lawful) (he : g.edges.Nodup) {b : Blossom} (hb : BlossomIn g b) {r : DefaultGraph}
    (h : b.contractGraph g = .ok r) : Blossom.Shrunk g b r.toI ∧ Cyclic g b.path := by
  have hid : Blossom.FreeId g b := by
    intro v hv hb' e
    subst e; exact hb.id ⟨hv, hb'⟩
  obtain ⟨r', e, hr⟩ := Blossom.contractGraph_ok hg he hid
  rw [h] at e; cases e
  refine ⟨⟨hg, hid, hb.nodup, hb.sub, hr.reach.lawful, hr.nodes, fun x y hne => hr.adj_iff hg hid hne⟩, ?_⟩
  have h1 := hb.closed
  obtain ⟨x, l, e⟩ := List.exists_cons_of_ne_nil hb.ne
  rw [e] at h1
  unfold Cyclic
  rw [e, List.isChain_split]
  exact ⟨by simpa using h1, h1.left_of_append⟩

/-- **C66, a path that avoids the blossom** is returned as it is, and is a path of the original graph. -/
theorem C66_lift_outside (g : GraphI) (hg : g.Lawful) (he : g.edges.Nodup) (b : Blossom) (hb : BlossomIn g b)
    (r : DefaultGraph) (hr : b.contractGraph g = .ok r) (path : List Nat) (hp : PathIn r.toI path) (hid : b.id ∉ path)
    (fuel : Nat) : b.lift fuel path g = .ok path ∧ PathIn g path := by
  obtain ⟨hs, hc⟩ := hb.shrunk hg he hr
  constructor
  · unfold Blossom.lift
    have : path.findIdx? (fun pid => pid == b.id) = none := by
      rw [List.findIdx?_eq_none_iff]
      intro x hx
      simp only [beq_eq_false_iff_ne, ne_eq]
      rintro rfl; exact hid hx
    rw [this]
  · exact ⟨hp.1, hp.2.1, hs.chain_out hp.2.1 hid hp.2.2.1, fun x hx => (hs.out_of_ne (hp.2.2.2 x hx) (fun e => hid (e ▸ hx))).1⟩

/-- **C66, a path through the blossom.**  `lift` returns (it does not panic, and `b.path.len() + 1` rounds of each of its loops are
enough) a path of the original graph: the same path with nodes of the blossom in the place of its id; all of them, in the order of
the cycle, if the id is at an end. -/
theorem C66_lift_through (g : GraphI) (hg : g.Lawful) (he : g.edges.Nodup) (b : Blossom) (hb : BlossomIn g b)
    (r : DefaultGraph) (hr : b.contractGraph g = .ok r) (left right : List Nat) (hp : PathIn r.toI (left ++ b.id :: right)) :
    ∃ mid, (∀ fuel, b.path.length < fuel → b.lift fuel (left ++ b.id :: right) g = .ok (left ++ mid ++ right)) ∧
      PathIn g (left ++ mid ++ right) ∧ mid ≠ [] ∧ (∀ x ∈ mid, x ∈ b.path) ∧
      (left = [] ∨ right = [] → ∃ u v, b.path = u ++ v ∧ mid = v ++ u) := by
  obtain ⟨hs, hc⟩ := hb.shrunk hg he hr
  obtain ⟨mid, h1, h2, h3, h4, h5, -⟩ := Blossom.lift_spec hs hc hb.ne (PathIn.iff.1 hp) (Nat.lt_succ_self _)
  refine ⟨mid, fun fuel hf => ?_, PathIn.iff.2 h2, h3, h4, fun h => ?_⟩
  · obtain ⟨mid', e, -⟩ := Blossom.lift_spec hs hc hb.ne (PathIn.iff.1 hp) hf
    have := Blossom.lift_le (g := g) (show b.path.length.succ ≤ fuel from hf) b (left ++ b.id :: right)
    exact this.eq h1 (by simp)
  · obtain ⟨n, hn⟩ := (h5 h).symm
    rw [List.rotate_eq_drop_append_take_mod] at hn
    exact ⟨_, _, (List.take_append_drop _ _).symm, hn.symm⟩

/-- **C66, length.**  Lifting a path with an even number of nodes over a blossom with an odd number gives a path with an even
number of nodes, if the neighbors of the id on the path each have one neighbor in the blossom only (or the id is at an end). -/
theorem C66_lift_even (g : GraphI) (hg : g.Lawful) (he : g.edges.Nodup) (b : Blossom) (hb : BlossomIn g b)
    (r : DefaultGraph) (hr : b.contractGraph g = .ok r) (left right : List Nat) (hp : PathIn r.toI (left ++ b.id :: right))
    (ho : b.path.length % 2 = 1) (hev : (left ++ b.id :: right).length % 2 = 0)
    (hu : left = [] ∨ right = [] ∨
      (∀ x, left.getLast? = some x ∨ right.head? = some x → ∀ t ∈ b.path, ∀ t' ∈ b.path, g.Adj x t → g.Adj x t' → t = t'))
    (fuel : Nat) (hf : b.path.length < fuel) (l : List Nat) (hl : b.lift fuel (left ++ b.id :: right) g = .ok l) :
    l.length % 2 = 0 := by
  obtain ⟨hs, hc⟩ := hb.shrunk hg he hr
  obtain ⟨mid, h1, h2, h3, h4, h5, h6⟩ := Blossom.lift_spec hs hc hb.ne (PathIn.iff.1 hp) hf
  rw [h1] at hl; cases hl
  have whole : mid.IsRotated b.path → (left ++ mid ++ right).length % 2 = 0 := by
    intro h
    have := h.perm.length_eq
    simp only [List.length_append, List.length_cons] at hev ⊢
    omega
  rcases hu with hu | hu | hu
  · exact whole (h5 (.inl hu))
  · exact whole (h5 (.inr hu))
  · have ex : ∀ o : Option Nat, (o = left.getLast? ∨ o = right.head?) → ∃ c, ∀ x, o = some x → ∀ t ∈ b.path, g.Adj x t → t = c := by
      intro o ho
      cases o with
      | none => exact ⟨0, by simp⟩
      | some x =>
        by_cases hx : ∃ t ∈ b.path, g.Adj x t
        · obtain ⟨t, ht, ha⟩ := hx
          refine ⟨t, ?_⟩
          rintro x' e t' ht' ha'
          cases e
          exact hu x (by rcases ho with ho | ho <;> simp [← ho]) t' ht' t ht ha' ha
        · refine ⟨0, ?_⟩
          rintro x' e t' ht' ha'
          cases e
          exact absurd ⟨t', ht', ha'⟩ hx
    obtain ⟨c, hc'⟩ := ex _ (.inl rfl)
    obtain ⟨d, hd'⟩ := ex _ (.inr rfl)
    exact h6 c d hc' (fun x hx t ht ha => hd' x hx t ht (hg.adj_symm _ _ ha)) ho hev

/-- The triangle 0-1-2 with 3 adjacent to 0 and 2, and the path 1-4-5. -/
def liftG : DefaultGraph :=
  ⟨[(5, 5), (4, 4), (3, 3), (2, 2), (1, 1), (0, 0)], [[1, 2, 3], [0, 2, 4], [0, 1, 3], [0, 2], [1, 5], [4]], [0, 1, 2, 3, 4, 5],
    [(0, 1), (0, 2), (0, 3), (1, 2), (1, 4), (2, 3), (4, 5)]⟩

theorem liftG_eq : DefaultGraph.tryFromAdjacency [[1, 2, 3], [0, 2, 4], [0, 1, 3], [0, 2], [1, 5], [4]] = .ok liftG := by
  decide +kernel

theorem liftG_reachable : liftG.Reachable := .fromAdjacency _ _ liftG_eq

theorem adj_of_nbr {g : GraphI} {l : List Nat} (h : l.IsChain (fun a b => b ∈ g.nbr a)) : l.IsChain g.Adj :=
  h.imp (fun _ _ hab => GraphI.mem_nbr.1 hab)

theorem liftG_blossom : BlossomIn liftG.toI ⟨6, [0, 1, 2]⟩ :=
  ⟨by decide, by decide +kernel, by decide, adj_of_nbr (by decide +kernel), by decide +kernel⟩

/-- The graph contracted to 6, 3, 4, 5. -/
def liftG' : DefaultGraph := ⟨[(5, 3), (4, 2), (3, 1), (6, 0)], [[3, 4], [6], [6, 5], [4]], [6, 3, 4, 5], [(6, 3), (6, 4), (4, 5)]⟩

/-- A case of C65 and C66: 1-2 a pair inside the blossom, base 0 paired with 3. -/
example : liftG.toI.Lawful ∧ liftG.toI.edges.Nodup ∧ BlossomIn liftG.toI ⟨6, [0, 1, 2]⟩ ∧
    Blossom.new 6 [0, 1, 5] [2, 1, 5] = .ok ⟨6, [0, 1, 2]⟩ ∧
    Blossom.contractGraph ⟨6, [0, 1, 2]⟩ liftG.toI = .ok liftG' ∧
    (pairingOf [(1, 2), (0, 3)]).Matches liftG.toI ∧
    PathIn liftG'.toI ([3] ++ 6 :: [4]) ∧
    Blossom.lift ⟨6, [0, 1, 2]⟩ 4 [3, 6, 4] liftG.toI = .ok [3, 0, 1, 4] := by
  refine ⟨reachable_lawful _ liftG_reachable, by decide +kernel, liftG_blossom, by decide +kernel, by decide +kernel, ?_, ?_,
    by decide +kernel⟩
  · exact matches_of_test (by decide +kernel)
  · exact ⟨by decide, by decide, adj_of_nbr (by decide +kernel), by decide +kernel⟩

/-- The same without the edge 2-3: both ends have one neighbor in the blossom, and the lift goes the longer way round. -/
def uniG : DefaultGraph :=
  ⟨[(5, 5), (4, 4), (3, 3), (2, 2), (1, 1), (0, 0)], [[1, 2, 3], [0, 2, 4], [0, 1], [0], [1, 5], [4]], [0, 1, 2, 3, 4, 5],
    [(0, 1), (0, 2), (0, 3), (1, 2), (1, 4), (4, 5)]⟩

theorem uniG_reachable : uniG.Reachable :=
  .fromAdjacency [[1, 2, 3], [0, 2, 4], [0, 1], [0], [1, 5], [4]] _ (by decide +kernel)

example : uniG.toI.Lawful ∧ BlossomIn uniG.toI ⟨6, [0, 1, 2]⟩ ∧ Blossom.contractGraph ⟨6, [0, 1, 2]⟩ uniG.toI = .ok liftG' ∧
    PathIn liftG'.toI ([3] ++ 6 :: [4, 5]) ∧
    (∀ x, [3].getLast? = some x ∨ [4, 5].head? = some x → ∀ t ∈ [0, 1, 2], ∀ t' ∈ [0, 1, 2],
      uniG.toI.Adj x t → uniG.toI.Adj x t' → t = t') ∧
    Blossom.lift ⟨6, [0, 1, 2]⟩ 4 [3, 6, 4, 5] uniG.toI = .ok [3, 0, 2, 1, 4, 5] := by
  refine ⟨reachable_lawful _ uniG_reachable, ?_, by decide +kernel, ?_, ?_, by decide +kernel⟩
  · exact ⟨by decide, by decide +kernel, by decide, adj_of_nbr (by decide +kernel), by decide +kernel⟩
  · exact ⟨by decide, by decide, adj_of_nbr (by decide +kernel), by decide +kernel⟩
  · intro x hx t ht t' ht' h1 h2
    have h1 := GraphI.mem_nbr.2 h1
    have h2 := GraphI.mem_nbr.2 h2
    have hx' : x = 3 ∨ x = 4 := by simpa [eq_comm] using hx
    have e3 : uniG.toI.nbr 3 = [0] := by decide +kernel
    have e4 : uniG.toI.nbr 4 = [1, 5] := by decide +kernel
    rcases hx' with rfl | rfl
    · rw [e3] at h1 h2; simp at h1 h2; omega
    · rw [e4] at h1 h2
      simp at h1 h2 ht ht'
      omega

/-- **C66, the length is not even in general**: here `lift` turns a path of four nodes into one of five, though the graph has a
path of six; this is why `maximum_matching` can panic (C41). -/
theorem C66_lift_odd : ∃ (g r : DefaultGraph) (b : Blossom) (path l : List Nat), g.Reachable ∧ BlossomIn g.toI b ∧
    b.path.length % 2 = 1 ∧ b.contractGraph g.toI = .ok r ∧ PathIn r.toI path ∧ path.length % 2 = 0 ∧
    (∀ fuel, 4 ≤ fuel → b.lift fuel path g.toI = .ok l) ∧ l.length % 2 = 1 := by
  refine ⟨liftG, liftG', ⟨6, [0, 1, 2]⟩, [3, 6, 4, 5], [3, 2, 1, 4, 5], liftG_reachable, liftG_blossom, rfl, by decide +kernel,
    ⟨by decide, by decide, adj_of_nbr (by decide +kernel), by decide +kernel⟩, rfl, ?_, rfl⟩
  intro fuel hf
  exact (Blossom.lift_le (g := liftG.toI) hf ⟨6, [0, 1, 2]⟩ [3, 6, 4, 5]).eq (by decide +kernel) (by simp)

end Gamma
