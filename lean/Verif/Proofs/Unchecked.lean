import Verif.Proofs.MaxMatching
import Verif.Proofs.Good
import Verif.Proofs.Isomorphic
/-
`maximum_matching` with a pairing whose pairs are nodes of the graph, but not all of them edges.
-/
namespace Gamma
open Pairing Blossom DefaultGraph

/-- `H` is `G` with some pairs of `p` as additional edges. -/
structure Plus (H G : GraphI) (p : Pairing) : Prop where
  lawful : G.Lawful
  nodes : G.nodes = H.nodes
  nbr : ∀ v ∈ H.nodes, ∃ l ex : List Nat, G.neighbors v = .ok l ∧ H.neighbors v = .ok (l ++ ex) ∧
    ∀ w ∈ ex, p.get v = some w
  edges : ∃ E : List (Nat × Nat), H.edges = G.edges ++ E ∧ ∀ e ∈ E, p.get e.1 = some e.2

namespace Plus
variable {H G K : GraphI} {p : Pairing}

theorem refl (h : G.Lawful) (p : Pairing) : Plus G G p :=
  ⟨h, rfl, fun v hv => ⟨G.nbr v, [], h.neighbors_eq hv, by rw [h.neighbors_eq hv]; simp, by simp⟩, ⟨[], by simp, by simp⟩⟩

theorem trans (h1 : Plus K H p) (h2 : Plus H G p) : Plus K G p := by
  refine ⟨h2.lawful, h2.nodes.trans h1.nodes, fun v hv => ?_, ?_⟩
  · obtain ⟨l, ex, a, b, c⟩ := h2.nbr v (by rw [h1.nodes]; exact hv)
    obtain ⟨l', ex', a', b', c'⟩ := h1.nbr v hv
    rw [b] at a'; injection a' with a'; subst a'
    refine ⟨l, ex ++ ex', a, by rw [b', List.append_assoc], fun w hw => ?_⟩
    rcases List.mem_append.1 hw with h | h
    · exact c w h
    · exact c' w h
  · obtain ⟨E, a, b⟩ := h2.edges
    obtain ⟨E', a', b'⟩ := h1.edges
    refine ⟨E ++ E', by rw [a', a, List.append_assoc], fun e he => ?_⟩
    rcases List.mem_append.1 he with h | h
    · exact b e h
    · exact b' e h

theorem but (h : Plus H G p) (hH : H.Lawful) : GraphI.AlongBut _root_.id H G p := by
  refine ⟨Function.injective_id, hH, by rw [h.nodes]; simp, fun v hv => ?_⟩
  obtain ⟨l, ex, a, b, c⟩ := h.nbr v hv
  refine ⟨l, by simpa using a, ?_⟩
  have e : H.nbr v = l ++ ex := by unfold GraphI.nbr; rw [b]
  rw [e, List.filter_append]
  have : ex.filter (fun w => p.get v != some w) = [] := by
    rw [List.filter_eq_nil_iff]
    intro w hw; rw [c w hw]; simp
  rw [this, List.append_nil]

theorem adj (h : Plus H G p) {u v : Nat} (hu : H.Lawful) : G.Adj u v → H.Adj u v := by
  intro ha
  obtain ⟨l, ex, a, b, c⟩ := h.nbr u (by rw [← h.nodes]; exact h.lawful.adj_src ha)
  obtain ⟨l', e, hm⟩ := ha
  rw [a] at e; injection e with e; subst e
  exact ⟨_, b, List.mem_append_left _ hm⟩

theorem depth (h : Plus H G p) (hs : p.Symmetric) : G.depth = H.depth := by
  unfold GraphI.depth GraphI.loops
  rw [h.nodes]
  congr 1
  refine List.countP_congr (fun v hv => ?_)
  obtain ⟨l, ex, a, b, c⟩ := h.nbr v hv
  have e : H.nbr v = l ++ ex := by unfold GraphI.nbr; rw [b]
  have e' : G.nbr v = l := by unfold GraphI.nbr; rw [a]
  rw [e, e']
  simp only [List.contains_iff_mem, List.mem_append]
  constructor
  · exact .inl
  · rintro (h | h)
    · exact h
    · exact absurd rfl (hs.ne (c v h))

/-- One more edge. -/
theorem addEdge {r r' : DefaultGraph} (hr : r.Reachable) {s t : Nat} (e : r.addEdgeQ s t = .ok r') (hs : p.Symmetric)
    (hst : p.get s = some t) : Plus r'.toI r.toI p := by
  obtain ⟨-, -, -, a⟩ := addEdgeQ_inv hr.wf e
  refine ⟨hr.lawful, a.nodes.symm, fun v hv => ?_, ⟨[(s, t)], a.edges, by simpa using hst⟩⟩
  have hv' : v ∈ r.toI.nodes := by
    have : v ∈ r'.nodes := hv
    rw [a.nodes] at this; exact this
  have h1 := hr.lawful.neighbors_eq hv'
  refine ⟨_, _, h1, by rw [← List.append_assoc]; exact a.nb v _ h1, fun w hw => ?_⟩
  rcases List.mem_append.1 hw with h | h
  · split at h
    · simp at h; subst h; rename_i e'; rw [e']; exact hst
    · simp at h
  · split at h
    · simp at h; subst h; rename_i e'; rw [e']; exact hs.get_get hst
    · simp at h

theorem Reachable_contractEdge {b : Blossom} {r r' : DefaultGraph} {e : Nat × Nat} (hr : r.Reachable)
    (h : b.contractEdge r e = .ok r') : r'.Reachable := by
  unfold contractEdge at h
  split at h
  · split at h
    · rw [Out.bind_eq_ok] at h
      obtain ⟨x, -, h⟩ := h
      split at h
      · exact Reachable_addEdgeQ hr h
      · cases h; exact hr
    · cases h; exact hr
  · split at h
    · rw [Out.bind_eq_ok] at h
      obtain ⟨x, -, h⟩ := h
      split at h
      · exact Reachable_addEdgeQ hr h
      · cases h; exact hr
    · exact Reachable_addEdgeQ hr h

theorem Reachable_foldlM {α : Type} {f : DefaultGraph → α → Out DefaultGraph}
    (hf : ∀ r r' e, r.Reachable → f r e = .ok r' → r'.Reachable) (E : List α) :
    ∀ {r r' : DefaultGraph}, r.Reachable → E.foldlM f r = .ok r' → r'.Reachable := by
  induction E with
  | nil => intro r r' hr h; cases h; exact hr
  | cons e E ih =>
    intro r r' hr h
    rw [List.foldlM_cons] at h
    obtain ⟨r1, h1, h2⟩ := (Out.bind_eq_ok ..).1 h
    exact ih (hf _ _ _ hr h1) h2

theorem contractEdges {b : Blossom} {p' : Pairing} (hs : p'.Symmetric) (E : List (Nat × Nat)) :
    ∀ {r r' : DefaultGraph}, r.Reachable → (∀ e ∈ E, ¬ (e.1 ∈ b.path ∧ e.2 ∈ b.path) → p'.get (kap b e.1) = some (kap b e.2)) →
      E.foldlM b.contractEdge r = .ok r' → Plus r'.toI r.toI p' := by
  induction E with
  | nil => intro r r' hr _ h; cases h; exact refl hr.lawful _
  | cons e E ih =>
    intro r r' hr hE h
    rw [List.foldlM_cons] at h
    obtain ⟨r1, h1, h2⟩ := (Out.bind_eq_ok ..).1 h
    have i := ih (Reachable_contractEdge hr h1) (fun e he => hE e (List.mem_cons_of_mem _ he)) h2
    refine i.trans ?_
    have hp := hE e List.mem_cons_self
    unfold contractEdge at h1
    by_cases c1 : e.1 ∈ b.path
    · by_cases c2 : e.2 ∈ b.path
      · simp [c1, c2] at h1; subst h1; exact refl hr.lawful _
      · simp only [List.contains_iff_mem, c1, c2, if_true, Bool.not_eq_true', Bool.eq_false_iff, ne_eq, not_false_eq_true, Out.bind_eq_ok] at h1
        obtain ⟨x, -, h1⟩ := h1
        rw [kap_in c1, kap_out c2] at hp
        split at h1
        · exact addEdge hr h1 hs (hp (fun h => c2 h.2))
        · cases h1; exact refl hr.lawful _
    · by_cases c2 : e.2 ∈ b.path
      · simp only [List.contains_iff_mem, c1, c2, if_true, if_false, Out.bind_eq_ok] at h1
        obtain ⟨x, -, h1⟩ := h1
        rw [kap_out c1, kap_in c2] at hp
        split at h1
        · exact addEdge hr h1 hs (hp (fun h => c1 h.1))
        · cases h1; exact refl hr.lawful _
      · simp only [List.contains_iff_mem, c1, c2, if_false] at h1
        rw [kap_out c1, kap_out c2] at hp
        exact addEdge hr h1 hs (hp (fun h => c1 h.1))

/-- Contraction keeps the relation. -/
theorem contract (h : Plus H G p) {b : Blossom} {base : Nat} {r : DefaultGraph} {p' : Pairing}
    (hr : b.contractGraph H = .ok r) (hc : Con H p b base r.toI p') :
    ∃ r1, b.contractGraph G = .ok r1 ∧ Plus r.toI r1.toI p' := by
  obtain ⟨E, hE, hEp⟩ := h.edges
  unfold contractGraph at hr ⊢
  rw [hE, ← h.nodes] at hr
  obtain ⟨r0, h0, hr⟩ := (Out.bind_eq_ok ..).1 hr
  obtain ⟨r1, h1, hr⟩ := (Out.bind_eq_ok ..).1 hr
  rw [foldlM_append_out] at hr
  obtain ⟨r2, h2, hr⟩ := (Out.bind_eq_ok ..).1 hr
  have R0 : r0.Reachable := Reachable_addNodeQ .new h0
  have R1 : r1.Reachable := Reachable_foldlM (fun r r' e hr he => by
    unfold contractNode at he
    split at he
    · exact Reachable_addNodeQ hr he
    · cases he; exact hr) _ R0 h1
  have R2 : r2.Reachable := Reachable_foldlM (fun r r' e hr he => Reachable_contractEdge hr he) _ R1 h2
  refine ⟨r2, by rw [h0, Out.ok_bind, h1, Out.ok_bind, h2], contractEdges hc.matches'.symmetric E R2 ?_ hr⟩
  intro e he hne
  have hp := hEp e he
  refine (hc.get' _ _).2 ⟨?_, e.1, e.2, hp, rfl, rfl⟩
  rw [Ne, hc.free.kap_eq (hc.matches_.mem_left hc.lawful hp) (hc.matches_.mem_right hc.lawful hp), not_or]
  exact ⟨hc.matches_.symmetric.ne hp, hne⟩

end Plus

/-! ### Lifting, without any assumption on edges -/
section
variable {G : GraphI}

theorem rotateToHead_any (hG : G.Lawful) {sid : Nat} (hsid : sid ∈ G.nodes) (fuel : Nat) :
    ∀ {B : List Nat}, B ≠ [] → (∀ x ∈ B, x ∈ G.nodes) →
      rotateToHead G sid fuel B = .timeout ∨ ∃ r, rotateToHead G sid fuel B = .ok r ∧ r.Perm B := by
  induction fuel with
  | zero => intro B _ _; exact .inl rfl
  | succ n ih =>
    intro B hne hm
    obtain ⟨c, l, rfl⟩ := List.exists_cons_of_ne_nil hne
    obtain ⟨v, ev, -⟩ := hG.hasEdge_ok sid c hsid (hm c (by simp))
    have hp := (rotateRight1_rot (c :: l)).perm
    rw [rotateToHead, show vecIndex (c :: l) 0 = .ok c from rfl, Out.ok_bind, ev, Out.expect_ok, Out.ok_bind]
    cases v with
    | true => exact .inr ⟨_, rfl, List.Perm.refl _⟩
    | false =>
      rcases ih (B := rotateRight1 (c :: l)) (by intro e; rw [e] at hp; simpa using hp.length_eq)
        (fun x hx => hm x (hp.mem_iff.1 hx)) with h | ⟨r, h1, h2⟩
      · exact .inl h
      · exact .inr ⟨r, h1, h2.trans hp⟩

theorem rotateToLast_any (hG : G.Lawful) {tid : Nat} (htid : tid ∈ G.nodes) (fuel : Nat) :
    ∀ {B : List Nat}, B ≠ [] → (∀ x ∈ B, x ∈ G.nodes) →
      rotateToLast G tid fuel B = .timeout ∨ ∃ r, rotateToLast G tid fuel B = .ok r ∧ r.Perm B := by
  induction fuel with
  | zero => intro B _ _; exact .inl rfl
  | succ n ih =>
    intro B hne hm
    have hp := (rotateRight1_rot B).perm
    obtain ⟨v, ev, -⟩ := hG.hasEdge_ok (B.getLast hne) tid (hm _ (List.getLast_mem hne)) htid
    rw [rotateToLast, List.getLast?_eq_getLast_of_ne_nil hne]
    simp only
    rw [ev, Out.expect_ok, Out.ok_bind]
    cases v with
    | true => exact .inr ⟨_, rfl, List.Perm.refl _⟩
    | false =>
      rcases ih (B := rotateRight1 B) (by intro e; rw [e] at hp; exact hne hp.nil_eq.symm)
        (fun x hx => hm x (hp.mem_iff.1 hx)) with h | ⟨r, h1, h2⟩
      · exact .inl h
      · exact .inr ⟨r, h1, h2.trans hp⟩

theorem pushUntil_any (hG : G.Lawful) {tid : Nat} (htid : tid ∈ G.nodes) (bl : List Nat) :
    ∀ {out : List Nat}, (∀ x ∈ bl, x ∈ G.nodes) →
      ∃ arc rest, bl = arc ++ rest ∧ pushUntil G tid bl out = .ok (out ++ arc) := by
  induction bl with
  | nil => intro out _; exact ⟨[], [], rfl, by simp [pushUntil]⟩
  | cons x bl ih =>
    intro out hm
    obtain ⟨v, ev, -⟩ := hG.hasEdge_ok x tid (hm x (by simp)) htid
    rw [pushUntil, ev, Out.expect_ok, Out.ok_bind]
    cases v with
    | true => exact ⟨[x], bl, rfl, by simp⟩
    | false =>
      obtain ⟨arc, rest, h1, h2⟩ := ih (out := out ++ [x]) (fun y hy => hm y (by simp [hy]))
      exact ⟨x :: arc, rest, by simp [h1], by simpa using h2⟩

theorem liftThrough_any (hG : G.Lawful) {sid tid : Nat} (hsid : sid ∈ G.nodes) (htid : tid ∈ G.nodes) (fuel : Nat)
    {bp : List Nat} (hne : bp ≠ []) (hm : ∀ x ∈ bp, x ∈ G.nodes) (left right : List Nat) :
    liftThrough fuel bp left right sid tid G = .timeout ∨
      ∃ arc rest, (arc ++ rest).Perm bp ∧ liftThrough fuel bp left right sid tid G = .ok (left ++ arc ++ right) := by
  unfold liftThrough
  rcases rotateToHead_any hG hsid fuel hne hm with h | ⟨r, h1, h2⟩
  · rw [h]; exact .inl rfl
  · obtain ⟨arc, rest, e, h3⟩ := pushUntil_any hG htid r (out := left) (fun x hx => hm x (h2.mem_iff.1 hx))
    rw [h1, Out.ok_bind, h3, Out.ok_bind]
    exact .inr ⟨arc, rest, e ▸ h2, rfl⟩

/-- Lifting gives a list of different nodes, or goes on for ever. -/
theorem lift_any (hG : G.Lawful) {b : Blossom} (hne : b.path ≠ []) (hnd : b.path.Nodup) (hm : ∀ x ∈ b.path, x ∈ G.nodes)
    (fuel : Nat) {path : List Nat} (hpn : path.Nodup) (hpm : ∀ x ∈ path, x = b.id ∨ (x ∈ G.nodes ∧ x ∉ b.path)) :
    b.lift fuel path G = .timeout ∨ ∃ l, b.lift fuel path G = .ok l ∧ l.Nodup ∧ ∀ x ∈ l, x ∈ G.nodes := by
  unfold lift
  cases hi : path.findIdx? (fun pid => pid == b.id) with
  | none =>
    rw [List.findIdx?_eq_none_iff] at hi
    refine .inr ⟨path, rfl, hpn, fun x hx => ?_⟩
    rcases hpm x hx with h | h
    · have := hi x hx; simp [h] at this
    · exact h.1
  | some i =>
    rw [List.findIdx?_eq_some_iff_getElem] at hi
    obtain ⟨hlt, he, -⟩ := hi
    have he' : path[i] = b.id := by simpa using he
    have hsplit : path = path.take i ++ b.id :: path.drop (i + 1) := by
      rw [← he', List.getElem_cons_drop, List.take_append_drop]
    simp only
    generalize hL : path.take i = L at hsplit ⊢
    generalize hR : path.drop (i + 1) = R at hsplit ⊢
    rw [hsplit] at hpn hpm
    rw [List.nodup_append, List.nodup_cons] at hpn
    obtain ⟨n1, ⟨n2, n3⟩, n4⟩ := hpn
    have mL : ∀ x ∈ L, x ∈ G.nodes ∧ x ∉ b.path := fun x hx =>
      (hpm x (by simp [hx])).resolve_left (n4 x hx b.id (by simp))
    have mR : ∀ x ∈ R, x ∈ G.nodes ∧ x ∉ b.path := fun x hx =>
      (hpm x (by simp [hx])).resolve_left (fun e => n2 (e ▸ hx))
    have fin : ∀ arc rest : List Nat, (arc ++ rest).Perm b.path →
        (L ++ arc ++ R).Nodup ∧ ∀ x ∈ L ++ arc ++ R, x ∈ G.nodes := by
      intro arc rest hp
      have ha : ∀ x ∈ arc, x ∈ b.path := fun x hx => hp.mem_iff.1 (by simp [hx])
      have hn : arc.Nodup := (List.nodup_append.1 (hp.nodup_iff.2 hnd)).1
      refine ⟨?_, ?_⟩
      · rw [List.append_assoc, List.nodup_append, List.nodup_append]
        refine ⟨n1, ⟨hn, n3, fun x hx y hy e => (mR y hy).2 (e ▸ ha x hx)⟩, fun x hx y hy e => ?_⟩
        subst e
        rcases List.mem_append.1 hy with h | h
        · exact (mL x hx).2 (ha x h)
        · exact n4 x hx x (by simp [h]) rfl
      · intro x hx
        simp only [List.mem_append] at hx
        rcases hx with (h | h) | h
        · exact (mL x h).1
        · exact hm x (ha x h)
        · exact (mR x h).1
    rcases L.eq_nil_or_concat with rfl | ⟨L', s, rfl⟩ <;> rcases R with _ | ⟨t, R'⟩
    · simp only [List.isEmpty_nil, Bool.and_self, if_true]
      exact .inr ⟨_, rfl, hnd, hm⟩
    · simp only [List.isEmpty_nil, List.isEmpty_cons, Bool.and_false, Bool.not_true, Bool.false_and, Bool.false_eq_true,
        if_false, Bool.not_false, Bool.and_self, if_true]
      unfold liftBlossomRight
      rw [show vecIndex (t :: R') 0 = .ok t from rfl, Out.ok_bind]
      rcases rotateToLast_any hG (mR t (by simp)).1 fuel hne hm with h | ⟨r, h1, h2⟩
      · rw [h]; exact .inl rfl
      · rw [h1, Out.ok_bind]
        have := fin r [] (by simpa using h2)
        exact .inr ⟨_, rfl, by simpa using this⟩
    · have e : (L'.concat s).isEmpty = false := by simp
      simp only [e, List.isEmpty_nil, Bool.and_true, Bool.false_eq_true, if_false, Bool.not_false, if_true]
      unfold liftLeftBlossom
      rw [List.concat_eq_append, List.getLast?_concat]
      simp only
      rcases rotateToHead_any hG (mL s (by simp)).1 fuel hne hm with h | ⟨r, h1, h2⟩
      · rw [h]; exact .inl rfl
      · rw [h1, Out.ok_bind]
        have := fin r [] (by simpa using h2)
        exact .inr ⟨_, rfl, by simpa using this⟩
    · have e : (L'.concat s).isEmpty = false := by simp
      simp only [e, List.isEmpty_cons, Bool.and_self, Bool.false_eq_true, if_false, Bool.not_false, Bool.and_false, Bool.false_and]
      unfold liftLeftBlossomRight
      rw [show (L'.concat s).getLast? = some s by rw [List.concat_eq_append, List.getLast?_concat],
        show vecIndex (t :: R') 0 = .ok t from rfl]
      simp only [Out.ok_bind]
      have hs := (mL s (by simp)).1
      have ht := (mR t (by simp)).1
      rcases liftThrough_any hG hs ht fuel hne hm (L'.concat s) (t :: R') with h | ⟨arc, rest, h1, h2⟩
      · rw [h]; exact .inl rfl
      · rw [h2, Out.ok_bind]
        split
        · exact .inr ⟨_, rfl, fin arc rest h1⟩
        · rcases liftThrough_any hG hs ht fuel (bp := b.path.reverse) (by simpa using hne) (fun x hx => hm x (by simpa using hx))
            (L'.concat s) (t :: R') with h | ⟨arc, rest, h1, h2⟩
          · rw [h]; exact .inl rfl
          · rw [h2]
            exact .inr ⟨_, rfl, fin arc rest (h1.trans (List.reverse_perm _))⟩

end

/-! ### The search -/
section
variable {G H : GraphI} {p : Pairing} {pf : Platform}

/-- What a run of `augmenting_path(G, p)` may end in, if the run on `H` ends in the second outcome. -/
def APAny (pf : Platform) (H : GraphI) (p : Pairing) (n : Nat) : Out (Option (List Nat)) → Out (Option (List Nat)) → Prop
  | .ok none, o => o = .ok none
  | .ok (some path), _ => path.Nodup ∧ (∀ x ∈ path, x ∈ H.nodes) ∧ ∃ M, IsMatching H M ∧ p.order < 2 * M.length
  | .err _, _ => False
  | .panic m, _ => ¬ Headroom pf H ∧
      ((m = overflowMsg ∧ pf.overflowChecks = true) ∨ (m = "bad graph" ∧ pf.overflowChecks = false))
  | .timeout, _ => n ≤ H.nodes.length + H.depth + 1 ∨ ∃ M, IsMatching H M ∧ p.order < 2 * M.length

theorem processBlossom_any (hP : Plus H G p) (hH : H.Lawful) (he : H.edges.Nodup) (hp : p.Matches H)
    {ord : HashOrder} (ho : ord.Valid) {fuel : Nat}
    {rec : GraphI → Pairing → Out (Option (List Nat))} {left right B s : List Nat} {base : Nat}
    (hB : Blossom.newLoop right [] left = .ok B) (hF : Found H p B base s)
    (ih : ∀ {H' G' : GraphI} {p' : Pairing}, Plus H' G' p' → H'.Lawful → H'.edges.Nodup → p'.Matches H' →
      APAny pf H' p' fuel (rec G' p') (rec H' p')) :
    APAny pf H p (fuel + 1) (processBlossom pf ord fuel rec left right G p) (processBlossom pf ord fuel rec left right H p) := by
  have hne : H.nodes ≠ [] := List.ne_nil_of_mem (hF.flower.sub _ hF.flower.base_mem)
  obtain ⟨mx, hmx⟩ : ∃ m, H.nodes.max? = some m := by
    cases h : H.nodes.max? with
    | none => rw [List.max?_eq_none_iff] at h; exact absurd h hne
    | some m => exact ⟨m, rfl⟩
  have hmx' := List.max?_eq_some_iff.1 hmx
  have hdepth : 1 ≤ H.depth := by
    unfold GraphI.depth
    rcases hF.shrinks with h | h
    · have := (hF.flower.nodup.subperm hF.flower.sub).length_le
      omega
    · have : 0 < H.loops := by
        unfold GraphI.loops
        rw [List.countP_pos_iff]
        exact ⟨base, hF.flower.sub _ hF.flower.base_mem, List.contains_iff_mem.2 (GraphI.mem_nbr.2 h)⟩
      omega
  have hmaxn : maxNode H = .ok mx := by unfold maxNode; rw [hmx]
  have hmaxn' : maxNode G = .ok mx := by unfold maxNode; rw [hP.nodes, hmx]
  have go : ∀ id, pf.succ mx = .ok id → FreeId H ⟨id, B⟩ → (Headroom pf H → id ≤ mx + 1) →
      APAny pf H p (fuel + 1) (processBlossom pf ord fuel rec left right G p) (processBlossom pf ord fuel rec left right H p) := by
    intro i hid hfree hle
    obtain ⟨r, hr, hc⟩ := contract_ok (b := ⟨i, B⟩) ho hH he hp hfree hF.flower
    obtain ⟨r1, hr1, hP'⟩ := hP.contract hr hc
    have hhr : Headroom pf H → Headroom pf r.toI := by
      intro hh v hv
      have hd := Found.depth_lt hc hF
      rcases hc.mem_nodes.1 hv with h1 | h1
      · subst h1
        have := hh mx hmx'.1
        have := hle hh
        omega
      · have := hh v h1.1
        omega
    unfold processBlossom Blossom.new
    simp only [hmaxn, hmaxn', Out.ok_bind, hid, hB, hr, hr1, Out.expect_ok]
    have i1 := ih hP' hc.lawful' hc.edges' hc.matches'
    have hd := hF.depth_lt hc
    have hll := hF.length_le hc
    have up : (∃ M, IsMatching r.toI M ∧ ((⟨i, B⟩ : Blossom).contractPairing ord p).order < 2 * M.length) →
        ∃ M, IsMatching H M ∧ p.order < 2 * M.length := by
      rintro ⟨M', j2, j3⟩
      obtain ⟨M, k1, k2⟩ := hc.lift_matching hF.cyclic j2
      have k3 := hc.order_eq
      have k4 := hF.odd
      exact ⟨M, k1, by simp only at *; omega⟩
    generalize rec r1.toI ((⟨i, B⟩ : Blossom).contractPairing ord p) = o at i1
    generalize rec r.toI ((⟨i, B⟩ : Blossom).contractPairing ord p) = o' at i1
    match o, i1 with
    | .ok none, i1 =>
      have : o' = .ok none := i1
      rw [this]; rfl
    | .ok (some path), i1 =>
      obtain ⟨j1, j2, j3⟩ := i1
      have hm : ∀ x, x ∈ B → x ∈ G.nodes := fun x hx => by rw [hP.nodes]; exact hF.flower.sub x hx
      rw [Out.ok_bind]
      simp only
      rcases lift_any hP.lawful (b := ⟨i, B⟩) (List.ne_nil_of_mem hF.flower.base_mem) hF.flower.nodup hm fuel j1 (fun x hx => by
        rw [hP.nodes]; exact hc.mem_nodes.1 (j2 x hx)) with h | ⟨l, h1, h2, h3⟩
      · rw [h]; exact .inr (up j3)
      · rw [h1, Out.ok_bind]
        exact ⟨h2, fun x hx => by rw [← hP.nodes]; exact h3 x hx, up j3⟩
    | .err e, i1 => exact i1.elim
    | .panic m, i1 => exact ⟨fun h => i1.1 (hhr h), i1.2⟩
    | .timeout, i1 =>
      rcases i1 with h | h
      · refine .inl ?_
        omega
      · exact .inr (up h)
  by_cases hlt : mx < pf.usizeMax
  · refine go (mx + 1) (by simp [Platform.succ, hlt]) ?_ (fun _ => Nat.le_refl _)
    intro v hv _ e
    have := hmx'.2 v hv
    simp only at e
    omega
  · have hnh : ¬ Headroom pf H := fun h => by have := h mx hmx'.1; omega
    cases hov : pf.overflowChecks with
    | true =>
      have : processBlossom pf ord fuel rec left right G p = .panic overflowMsg := by
        unfold processBlossom
        rw [hmaxn', Out.ok_bind]
        simp [Platform.succ, hlt, hov]
      rw [this]
      exact ⟨hnh, .inl ⟨rfl, hov⟩⟩
    | false =>
      have hid : pf.succ mx = .ok 0 := by simp [Platform.succ, hlt, hov]
      by_cases hfree : FreeId H ⟨0, B⟩
      · exact go 0 hid hfree (fun h => absurd h hnh)
      · unfold FreeId at hfree
        push Not at hfree
        obtain ⟨v, hv, hvb, hv0⟩ := hfree
        have : processBlossom pf ord fuel rec left right G p = .panic "bad graph" := by
          unfold processBlossom Blossom.new
          rw [hmaxn', Out.ok_bind, hid, Out.ok_bind, hB, Out.ok_bind, Out.ok_bind,
            contractGraph_err (b := ⟨0, B⟩) hP.lawful (by rw [hP.nodes]; exact hv) hvb hv0, Out.expect_err, Out.panic_bind]
        rw [this]
        exact ⟨hnh, .inr ⟨rfl, hov⟩⟩

theorem augmentingPath_any {ords : Nat → HashOrder} (ho : ∀ i, (ords i).Valid) (n : Nat) :
    ∀ {H G : GraphI} {p : Pairing}, Plus H G p → H.Lawful → H.edges.Nodup → p.Matches H →
      APAny pf H p n (augmentingPath pf ords n G p) (augmentingPath pf ords n H p) := by
  induction n with
  | zero => intros; exact .inl (Nat.zero_le _)
  | succ n ih =>
    intro H G p hP hH he hp
    rcases augmentingPath_search_ren (pf := pf) (hP.but hH) hp hp.symmetric (fun v _ => by simp) ho ho n with
      ⟨h1, h2, h3⟩ | ⟨f, P, v, w, hE, h1, h2⟩ | ⟨h1, h2, h3⟩
    · rw [h1, h2]; rfl
    · rw [List.map_id, Forest.ren_id] at h2
      rw [h1, h2]
      have hF := hE.forest
      have hv := hE.even_v
      have hw := hE.even_w
      have hv0 : P v ≠ [] := by intro e; rw [e] at hv; simp at hv
      unfold evenPath
      simp only [_root_.id]
      rw [hF.path]
      by_cases hn : n < (P v).length
      · rw [if_pos hn, Out.timeout_bind]
        have hlen := hF.length_le hH v
        exact .inl (by omega)
      rw [if_neg hn, if_neg hv0, Out.ok_bind, Out.ok_bind]
      simp only
      by_cases hl : (P v).getLast? = (P w).getLast?
      · have hl' : ((P v).getLast? == (P w).getLast?) = true := by simpa using hl
        rw [if_pos hl', if_pos hl']
        obtain ⟨B, base, s, hB, hFd⟩ := hF.found hH hp hv hw hE.adj hl
        exact processBlossom_any hP hH he hp (ho n) hB hFd ih
      · have hl' : ((P v).getLast? == (P w).getLast?) = false := by simpa using hl
        rw [hl']
        simp only [Bool.false_eq_true, if_false]
        obtain ⟨a1, a2⟩ := hF.augmenting hH hp hv hw hE.adj hl
        obtain ⟨M, m1, m2⟩ := larger_of_augmenting hH hp a1 a2
        exact ⟨a2.nodup, a2.mem, M, m1, by omega⟩
    · rw [h2]; exact .inl (by omega)

end

/-! ### The graph with the pairs as additional edges -/

/-- All paired ids are nodes of `g`. -/
def Pairing.Inside (p : Pairing) (g : GraphI) : Prop := ∀ v w, p.get v = some w → v ∈ g.nodes

/-- `g`, and an edge for each pair of `p` that is none. -/
def GraphI.withPairs (g : GraphI) (p : Pairing) : GraphI where
  isEmpty := g.isEmpty
  order := g.order
  size := (g.edges ++ (p.edges _root_.id).filter (fun e => !(g.nbr e.1).contains e.2)).length
  nodes := g.nodes
  neighbors v := g.neighbors v >>= fun l => .ok (l ++ (p.get v).toList.filter (fun w => !l.contains w))
  hasNode := g.hasNode
  degree v := (g.neighbors v >>= fun l => .ok (l ++ (p.get v).toList.filter (fun w => !l.contains w))) >>= fun l => .ok l.length
  edges := g.edges ++ (p.edges _root_.id).filter (fun e => !(g.nbr e.1).contains e.2)
  hasEdge u v :=
    if u ∉ g.nodes then .err (.missingNode u) else if v ∉ g.nodes then .err (.missingNode v)
    else .ok ((g.nbr u).contains v || p.get u == some v)

section
variable {g : GraphI} {p : Pairing} {pf : Platform}

theorem withPairs_nb (hg : g.Lawful) {v : Nat} (hv : v ∈ g.nodes) :
    (g.withPairs p).neighbors v = .ok (g.nbr v ++ (p.get v).toList.filter (fun w => !(g.nbr v).contains w)) := by
  show (g.neighbors v >>= _) = _
  rw [hg.neighbors_eq hv]; rfl

theorem withPairs_adj (hg : g.Lawful) (hi : p.Inside g) {u v : Nat} :
    (g.withPairs p).Adj u v ↔ g.Adj u v ∨ p.get u = some v := by
  by_cases hu : u ∈ g.nodes
  · unfold GraphI.Adj
    rw [withPairs_nb hg hu, hg.neighbors_eq hu]
    simp only [Out.ok.injEq, exists_eq_left', List.mem_append, List.mem_filter, Option.mem_toList,
      Bool.not_eq_true', List.contains_eq_mem, decide_eq_false_iff_not]
    constructor
    · rintro (h | ⟨h, -⟩)
      · exact .inl h
      · exact .inr h
    · rintro (h | h)
      · exact .inl h
      · by_cases c : v ∈ g.nbr u
        · exact .inl c
        · exact .inr ⟨h, c⟩
  · constructor
    · rintro ⟨l, h, -⟩
      have : (g.withPairs p).neighbors u = .err (.missingNode u) := by
        show (g.neighbors u >>= _) = _
        rw [hg.neighbors_err u hu]; rfl
      rw [this] at h; cases h
    · rintro (h | h)
      · exact absurd (hg.adj_src h) hu
      · exact absurd (hi _ _ h) hu

theorem mem_extra (hs : p.Symmetric) {u v : Nat} :
    (u, v) ∈ (p.edges _root_.id).filter (fun e => !(g.nbr e.1).contains e.2) ↔ u < v ∧ p.get u = some v ∧ ¬ g.Adj u v := by
  rw [List.mem_filter, mem_edges HashOrder.id_valid hs, and_assoc]
  simp [← GraphI.mem_nbr]

theorem withPairs_lawful (hg : g.Lawful) (hs : p.Symmetric) (hi : p.Inside g) : (g.withPairs p).Lawful := by
  refine ⟨hg.nodes_nodup, hg.isEmpty_eq, hg.order_eq, rfl, hg.hasNode_iff, fun v hv => ⟨_, withPairs_nb hg hv⟩, ?_,
    fun v => rfl, ?_, ?_, ?_, ?_, ?_, ?_, ?_, ?_, ?_⟩
  · intro v hv
    show (g.neighbors v >>= _) = _
    rw [hg.neighbors_err v hv]; rfl
  · intro u v h
    rw [withPairs_adj hg hi] at h ⊢
    exact h.imp (hg.adj_symm _ _) hs.get_get
  · intro u v h
    rw [withPairs_adj hg hi] at h
    rcases h with h | h
    · exact hg.adj_mem _ _ h
    · exact hi _ _ (hs.get_get h)
  · intro u v l h hne
    by_cases hu : u ∈ g.nodes
    · rw [withPairs_nb hg hu] at h; injection h with h; subst h
      rw [List.count_append]
      have h1 := hg.neighbor_once u v _ (hg.neighbors_eq hu) hne
      by_cases hv : v ∈ g.nbr u
      · have : ((p.get u).toList.filter (fun w => !(g.nbr u).contains w)).count v = 0 := by
          rw [List.count_eq_zero, List.mem_filter]; simp [hv]
        omega
      · rw [List.count_eq_zero.2 hv, Nat.zero_add]
        refine (List.count_le_length).trans ((List.length_filter_le _ _).trans ?_)
        cases p.get u <;> simp
    · have : (g.withPairs p).neighbors u = .err (.missingNode u) := by
        show (g.neighbors u >>= _) = _
        rw [hg.neighbors_err u hu]; rfl
      rw [this] at h; cases h
  · intro u v hu hv
    have hu' : u ∈ g.nodes := hu
    have hv' : v ∈ g.nodes := hv
    refine ⟨(g.nbr u).contains v || p.get u == some v, by simp [GraphI.withPairs, hu', hv'], ?_⟩
    rw [withPairs_adj hg hi, Bool.or_eq_true, List.contains_iff_mem, GraphI.mem_nbr, beq_iff_eq]
  · intro u v hu
    have hu' : u ∉ g.nodes := hu
    simp [GraphI.withPairs, hu']
  · intro u v hu hv
    have hu' : u ∈ g.nodes := hu
    have hv' : v ∉ g.nodes := hv
    simp [GraphI.withPairs, hu', hv']
  · intro u v h
    rw [withPairs_adj hg hi]
    rcases List.mem_append.1 h with h | h
    · exact .inl (hg.edges_adj _ _ h)
    · exact .inr ((mem_extra hs).1 h).2.1
  · intro u v hne h
    show (u, v) ∈ g.edges ++ _ ∨ (v, u) ∈ g.edges ++ _
    rw [List.mem_append, List.mem_append, mem_extra hs, mem_extra hs]
    by_cases ha : g.Adj u v
    · rcases hg.adj_edges u v hne ha with h | h
      · exact .inl (.inl h)
      · exact .inr (.inl h)
    · rw [withPairs_adj hg hi] at h
      have hp := h.resolve_left ha
      rcases Nat.lt_or_gt_of_ne hne with hlt | hlt
      · exact .inl (.inr ⟨hlt, hp, ha⟩)
      · exact .inr (.inr ⟨hlt, hs.get_get hp, fun h => ha (hg.adj_symm _ _ h)⟩)
  · intro u v hne
    show (g.edges ++ _).count (u, v) + (g.edges ++ _).count (v, u) ≤ 1
    rw [List.count_append, List.count_append]
    have h1 := hg.edges_once u v hne
    have nd : ((p.edges _root_.id).filter (fun e => !(g.nbr e.1).contains e.2)).Nodup :=
      (edges_nodup HashOrder.id_valid hs).filter _
    have c1 := List.nodup_iff_count_le_one.1 nd (u, v)
    have c2 := List.nodup_iff_count_le_one.1 nd (v, u)
    have k1 := mem_extra (g := g) hs (u := u) (v := v)
    have k2 := mem_extra (g := g) hs (u := v) (v := u)
    generalize (p.edges _root_.id).filter (fun e => !(g.nbr e.1).contains e.2) = E at *
    by_cases ha : g.Adj u v
    · have z1 : E.count (u, v) = 0 := by
        rw [List.count_eq_zero, k1]; exact fun h => h.2.2 ha
      have z2 : E.count (v, u) = 0 := by
        rw [List.count_eq_zero, k2]; exact fun h => h.2.2 (hg.adj_symm _ _ ha)
      omega
    · have z1 : g.edges.count (u, v) = 0 := by
        rw [List.count_eq_zero]; exact fun h => ha (hg.edges_adj _ _ h)
      have z2 : g.edges.count (v, u) = 0 := by
        rw [List.count_eq_zero]; exact fun h => ha (hg.adj_symm _ _ (hg.edges_adj _ _ h))
      by_cases hlt : u < v
      · have : E.count (v, u) = 0 := by
          rw [List.count_eq_zero, k2]; exact fun h => by omega
        omega
      · have : E.count (u, v) = 0 := by
          rw [List.count_eq_zero, k1]; exact fun h => by omega
        omega

theorem withPairs_edges (hg : g.Lawful) (he : g.edges.Nodup) (hs : p.Symmetric) : (g.withPairs p).edges.Nodup := by
  show (g.edges ++ _).Nodup
  rw [List.nodup_append]
  refine ⟨he, (edges_nodup HashOrder.id_valid hs).filter _, ?_⟩
  rintro ⟨a, c⟩ h1 e h2 rfl
  exact ((mem_extra hs).1 h2).2.2 (hg.edges_adj _ _ h1)

theorem withPairs_matches (hg : g.Lawful) (hs : p.Symmetric) (hi : p.Inside g) : p.Matches (g.withPairs p) :=
  matches_of hs (fun _ _ h => (withPairs_adj hg hi).2 (.inr h))

theorem withPairs_plus (hg : g.Lawful) (hs : p.Symmetric) : Plus (g.withPairs p) g p := by
  refine ⟨hg, rfl, fun v hv => ⟨_, _, hg.neighbors_eq hv, withPairs_nb hg hv, fun w hw => ?_⟩, ⟨_, rfl, ?_⟩⟩
  · exact Option.mem_toList.1 (List.mem_of_mem_filter hw)
  · rintro ⟨a, c⟩ h
    exact ((mem_extra hs).1 h).2.1

/-- The outcome of `maximum_matching` with any symmetric pairing of the nodes of the graph. -/
theorem maximumMatching_any (hg : g.Lawful) (he : g.edges.Nodup) (n : Nat) :
    ∀ {p : Pairing} {ords : List Bool → Nat → HashOrder}, p.Symmetric → p.Inside g → (∀ l i, (ords l i).Valid) →
    (∃ q, maximumMatching pf n ords g p = .ok q ∧ q.Symmetric ∧ q.Inside g ∧ ∃ A c, Cert (g.withPairs q) q A c) ∨
    maximumMatching pf n ords g p = .panic "even path augmentation" ∨
    (∃ m, maximumMatching pf n ords g p = .panic m ∧ ¬ Headroom pf g ∧
      ((m = overflowMsg ∧ pf.overflowChecks = true) ∨ (m = "bad graph" ∧ pf.overflowChecks = false))) ∨
    maximumMatching pf n ords g p = .timeout := by
  induction n with
  | zero => intros; exact .inr (.inr (.inr rfl))
  | succ n ih =>
    intro p ords hs hi ho
    have hH := withPairs_lawful hg hs hi
    have hHe := withPairs_edges hg he hs
    have hM := withPairs_matches hg hs hi
    have hP := withPairs_plus hg hs
    have h1 := augmentingPath_any (pf := pf) (ho []) n hP hH hHe hM
    rw [maximumMatching]
    generalize augmentingPath pf (ords []) n g p = o at h1 ⊢
    match o, h1 with
    | .ok none, h =>
      have h2 := (augmentingPath_spec (pf := pf) (ho []) (ho []) n hH hHe hM hM rfl).1
      rw [show augmentingPath pf (ords []) n (g.withPairs p) p = .ok none from h] at h2
      exact .inl ⟨p, rfl, hs, hi, h2⟩
    | .ok (some path), ⟨a, b, _⟩ =>
      rw [Out.ok_bind]
      simp only
      rcases Nat.mod_two_eq_zero_or_one path.length with h0 | h0
      · obtain ⟨p1, e1, s1, c1, c2⟩ := augment_spec hs path a h0
        have i1 : p1.Inside g := by
          intro v w hvw
          by_cases hv : v ∈ path
          · exact b v hv
          · rw [c2 v hv] at hvw
            cases hpv : p.get v with
            | none => rw [hpv] at hvw; cases hvw
            | some y => exact hi v y hpv
        rw [e1, Out.ok_bind]
        rcases ih s1 i1 (fun l i => ho (false :: l) i) with ⟨p2, e, s2, i2, -⟩ | e | ⟨m, e, h⟩ | e
        · rw [e, Out.ok_bind]
          exact ih s2 i2 (fun l i => ho (true :: l) i)
        · rw [e]; exact .inr (.inl rfl)
        · rw [e]; exact .inr (.inr (.inl ⟨m, rfl, h⟩))
        · rw [e]; exact .inr (.inr (.inr rfl))
      · rw [augment_odd p path h0]
        exact .inr (.inl rfl)
    | .err e, h => exact h.elim
    | .panic m, h =>
      refine .inr (.inr (.inl ⟨m, rfl, fun hh => h.1 ?_, h.2⟩))
      intro v hv
      rw [← hP.depth hs]
      exact hh v hv
    | .timeout, h => exact .inr (.inr (.inr rfl))

/-- A pairing that is as large as can be is left alone. -/
theorem maximumMatching_stay (hg : g.Lawful) (he : g.edges.Nodup) (hs : p.Symmetric) (hi : p.Inside g)
    (hmax : ∀ M, IsMatching (g.withPairs p) M → 2 * M.length ≤ p.order) (hh : Headroom pf g)
    {ords : List Bool → Nat → HashOrder} (ho : ∀ l i, (ords l i).Valid) {n : Nat} (hn : g.nodes.length + g.depth + 3 ≤ n) :
    maximumMatching pf n ords g p = .ok p := by
  obtain ⟨n, rfl⟩ : ∃ m, n = m + 1 := ⟨n - 1, by omega⟩
  have hP := withPairs_plus hg hs
  have h1 := augmentingPath_any (pf := pf) (ho []) n hP (withPairs_lawful hg hs hi) (withPairs_edges hg he hs)
    (withPairs_matches hg hs hi)
  rw [maximumMatching]
  generalize augmentingPath pf (ords []) n g p = o at h1 ⊢
  have no : ¬ ∃ M, IsMatching (g.withPairs p) M ∧ p.order < 2 * M.length := by
    rintro ⟨M, h1, h2⟩
    have := hmax M h1
    omega
  match o, h1 with
  | .ok none, h => rfl
  | .ok (some path), ⟨_, _, h⟩ => exact absurd h no
  | .err e, h => exact h.elim
  | .panic m, h =>
    refine absurd (fun v hv => ?_) h.1
    rw [← hP.depth hs]
    exact hh v hv
  | .timeout, h =>
    rcases h with h | h
    · rw [← hP.depth hs] at h
      have : (g.withPairs p).nodes = g.nodes := rfl
      rw [this] at h
      omega
    · exact absurd h no

end

/-! ### Hash orders -/
section
variable {pf : Platform}

theorem matches_congr {g : GraphI} {p q : Pairing} (hp : p.Matches g) (hq : q.Symmetric) (h : q.get = p.get) : q.Matches g :=
  matches_of hq (fun _ _ e => hp.adj' (by rw [← h]; exact e))

theorem processBlossom_congr_any {H G : GraphI} {p q : Pairing} (hP : Plus H G p) (hH : H.Lawful) (he : H.edges.Nodup)
    (hp : p.Matches H) (hq : q.Symmetric) (hpq : q.get = p.get)
    {ord ord' : HashOrder} (ho : ord.Valid) (ho' : ord'.Valid) {fuel : Nat}
    {rec rec' : GraphI → Pairing → Out (Option (List Nat))} {left right B s : List Nat} {base : Nat}
    (hB : Blossom.newLoop right [] left = .ok B) (hF : Found H p B base s)
    (ih : ∀ {H' G' : GraphI} {p' q' : Pairing}, Plus H' G' p' → H'.Lawful → H'.edges.Nodup → p'.Matches H' → q'.Symmetric →
      q'.get = p'.get → rec' G' q' = rec G' p') :
    processBlossom pf ord' fuel rec' left right G q = processBlossom pf ord fuel rec left right G p := by
  unfold processBlossom Blossom.new
  rw [hB]
  cases hm : maxNode G with
  | err e => rfl
  | panic e => rfl
  | timeout => rfl
  | ok mx =>
    rw [Out.ok_bind, Out.ok_bind]
    cases hi : pf.succ mx with
    | err e => rfl
    | panic e => rfl
    | timeout => rfl
    | ok i =>
      simp only [Out.ok_bind]
      by_cases hfree : FreeId H ⟨i, B⟩
      · obtain ⟨r, hr, hc⟩ := contract_ok (b := ⟨i, B⟩) ho hH he hp hfree hF.flower
        have hFq : Flower H q B base := ⟨hF.flower.nodup, hF.flower.sub, hF.flower.base_mem,
          by rw [hpq]; exact hF.flower.base_out, by rw [hpq]; exact hF.flower.inner⟩
        obtain ⟨r', hr', hc'⟩ := contract_ok (b := ⟨i, B⟩) ho' hH he (matches_congr hp hq hpq) hfree hFq
        rw [hr] at hr'; injection hr' with hr'; subst hr'
        obtain ⟨r1, hr1, hP'⟩ := hP.contract hr hc
        rw [hr1, Out.expect_ok, Out.ok_bind, Out.ok_bind,
          ih hP' hc.lawful' hc.edges' hc.matches' hc'.matches'.symmetric ?_]
        funext x
        refine Option.ext (fun y => ?_)
        rw [hc.get', hc'.get', hpq]
      · unfold FreeId at hfree
        push Not at hfree
        obtain ⟨u, hu, hub, hu0⟩ := hfree
        rw [contractGraph_err (b := ⟨i, B⟩) hP.lawful (by rw [hP.nodes]; exact hu) hub hu0, Out.expect_err, Out.panic_bind,
          Out.panic_bind]

/-- The search does not depend on the iteration orders or on how the mates are stored. -/
theorem augmentingPath_congr_any {ords ords' : Nat → HashOrder} (ho : ∀ i, (ords i).Valid) (ho' : ∀ i, (ords' i).Valid) (n : Nat) :
    ∀ {H G : GraphI} {p q : Pairing}, Plus H G p → H.Lawful → H.edges.Nodup → p.Matches H → q.Symmetric → q.get = p.get →
      augmentingPath pf ords' n G q = augmentingPath pf ords n G p := by
  induction n with
  | zero => intros; rfl
  | succ n ih =>
    intro H G p q hP hH he hp hq hpq
    have hqH := matches_congr hp hq hpq
    rw [augmentingPath_eq_trace, augmentingPath_eq_trace]
    rcases apTrace_ren (hP.but hH) hp hp.symmetric (fun v _ => by simp) (ho n) (ho n) n with
      ⟨h1, h2, -⟩ | ⟨f, P, v, w, hE, h1, h2⟩ | ⟨h1, h2, -⟩
    · rcases apTrace_ren (hP.but hH) hp hq (fun v _ => by simp [hpq]) (ho n) (ho' n) n with
        ⟨k1, k2, -⟩ | ⟨f', P', v', w', hE', k1, k2⟩ | ⟨k1, k2, -⟩
      · rw [h2, k2, Out.ok_bind, Out.ok_bind]
      · rw [h1] at k1; injection k1 with k1; cases k1
      · rw [h1] at k1; cases k1
    · rcases apTrace_ren (hP.but hH) hp hq (fun v _ => by simp [hpq]) (ho n) (ho' n) n with
        ⟨k1, k2, -⟩ | ⟨f', P', v', w', hE', k1, k2⟩ | ⟨k1, k2, -⟩
      · rw [h1] at k1; injection k1 with k1; cases k1
      · rw [h1] at k1
        simp only [Out.ok.injEq, Option.some.injEq, Prod.mk.injEq] at k1
        obtain ⟨rfl, e2, rfl⟩ := k1
        rw [h2, k2, ← e2, Forest.ren_id]
        simp only [Out.ok_bind, List.map_id, _root_.id]
        have hF := hE.forest
        have hv := hE.even_v
        have hw := hE.even_w
        have hv0 : P v ≠ [] := by intro e; rw [e] at hv; simp at hv
        unfold evenPath
        rw [hF.path]
        by_cases hn : n < (P v).length
        · rw [if_pos hn, Out.timeout_bind, Out.timeout_bind]
        rw [if_neg hn, if_neg hv0, Out.ok_bind, Out.ok_bind]
        simp only
        by_cases hl : (P v).getLast? = (P w).getLast?
        · have hl' : ((P v).getLast? == (P w).getLast?) = true := by simpa using hl
          rw [if_pos hl', if_pos hl']
          obtain ⟨B, base, s, hB, hFd⟩ := hF.found hH hp hv hw hE.adj hl
          exact processBlossom_congr_any hP hH he hp hq hpq (ho n) (ho' n) hB hFd ih
        · have hl' : ((P v).getLast? == (P w).getLast?) = false := by simpa using hl
          rw [hl']
          simp only [Bool.false_eq_true, if_false]
      · rw [h1] at k1; cases k1
    · rcases apTrace_ren (hP.but hH) hp hq (fun v _ => by simp [hpq]) (ho n) (ho' n) n with
        ⟨k1, k2, -⟩ | ⟨f', P', v', w', hE', k1, k2⟩ | ⟨k1, k2, -⟩
      · rw [h1] at k1; cases k1
      · rw [h1] at k1; cases k1
      · rw [h2, k2, Out.timeout_bind, Out.timeout_bind]

theorem augment_any {g : GraphI} {p p1 : Pairing} {path : List Nat} (hs : p.Symmetric) (hi : p.Inside g) (a : path.Nodup)
    (b : ∀ x ∈ path, x ∈ g.nodes) (h0 : path.length % 2 = 0) (e : p.augment path = .ok p1) : p1.Symmetric ∧ p1.Inside g := by
  obtain ⟨p1', e1, s1, c1, c2⟩ := augment_spec hs path a h0
  rw [e] at e1; injection e1 with e1; subst e1
  refine ⟨s1, fun v w hvw => ?_⟩
  by_cases hv : v ∈ path
  · exact b v hv
  · rw [c2 v hv] at hvw
    cases hpv : p.get v with
    | none => rw [hpv] at hvw; cases hvw
    | some y => exact hi v y hpv

theorem maximumMatching_congr_any {g : GraphI} (hg : g.Lawful) (he : g.edges.Nodup) (n : Nat) :
    ∀ {p q : Pairing} {ords ords' : List Bool → Nat → HashOrder}, p.Symmetric → p.Inside g → q.Symmetric → q.get = p.get →
    (∀ l i, (ords l i).Valid) → (∀ l i, (ords' l i).Valid) →
    (∃ p' q', maximumMatching pf n ords g p = .ok p' ∧ maximumMatching pf n ords' g q = .ok q' ∧ p'.Symmetric ∧ p'.Inside g ∧
      q'.Symmetric ∧ q'.get = p'.get) ∨
    (∃ m, maximumMatching pf n ords g p = .panic m ∧ maximumMatching pf n ords' g q = .panic m) ∨
    (maximumMatching pf n ords g p = .timeout ∧ maximumMatching pf n ords' g q = .timeout) := by
  induction n with
  | zero => intros; exact .inr (.inr ⟨rfl, rfl⟩)
  | succ n ih =>
    intro p q ords ords' hs hi hq hpq ho ho'
    have hH := withPairs_lawful hg hs hi
    have hHe := withPairs_edges hg he hs
    have hM := withPairs_matches hg hs hi
    have hP := withPairs_plus hg hs
    have h1 := augmentingPath_any (pf := pf) (ho []) n hP hH hHe hM
    have heq := augmentingPath_congr_any (pf := pf) (ho []) (ho' []) n hP hH hHe hM hq hpq
    unfold maximumMatching
    rw [heq]
    generalize augmentingPath pf (ords []) n g p = o at h1 ⊢
    match o, h1 with
    | .ok none, h => exact .inl ⟨p, q, rfl, rfl, hs, hi, hq, hpq⟩
    | .ok (some path), ⟨a, b, _⟩ =>
      rw [Out.ok_bind, Out.ok_bind]
      simp only
      rcases Nat.mod_two_eq_zero_or_one path.length with h0 | h0
      · obtain ⟨p1, q1, e1, e2, e3⟩ := get_eq_of_augment hs hq hpq.symm a h0
        obtain ⟨s1, i1⟩ := augment_any hs hi a b h0 e1
        obtain ⟨s2, -⟩ := augment_any hq (fun v w h => hi v w (by rw [← hpq]; exact h)) a b h0 e2
        rw [e1, e2, Out.ok_bind, Out.ok_bind]
        rcases ih s1 i1 s2 e3.symm (fun l i => ho (false :: l) i) (fun l i => ho' (false :: l) i) with
          ⟨p2, q2, a1, a2, a3, a4, a5, a6⟩ | ⟨m, a1, a2⟩ | ⟨a1, a2⟩
        · rw [a1, a2, Out.ok_bind, Out.ok_bind]
          exact ih a3 a4 a5 a6 (fun l i => ho (true :: l) i) (fun l i => ho' (true :: l) i)
        · rw [a1, a2]; exact .inr (.inl ⟨m, rfl, rfl⟩)
        · rw [a1, a2]; exact .inr (.inr ⟨rfl, rfl⟩)
      · rw [augment_odd p path h0, augment_odd q path h0]
        exact .inr (.inl ⟨_, rfl, rfl⟩)
    | .err e, h => exact h.elim
    | .panic m, h => exact .inr (.inl ⟨m, rfl, rfl⟩)
    | .timeout, h => exact .inr (.inr ⟨rfl, rfl⟩)

end

/-! ### Two colours -/
section
variable {g : GraphI} {p : Pairing} {pf : Platform}

theorem augmentingPath_plus_bip {G H : GraphI} (hP : Plus H G p) (hH : H.Lawful) (hp : p.Matches H) {col : Nat → Bool}
    (hcol : ∀ u v, H.Adj u v → col u ≠ col v) {ords : Nat → HashOrder} (ho : ∀ i, (ords i).Valid) (n : Nat) :
    (augmentingPath pf ords n G p = .ok none ∧ ∃ A c, Cert H p A c) ∨
    (∃ path, augmentingPath pf ords n G p = .ok (some path) ∧ p.Augmenting path ∧ IsPath H path) ∨
    (augmentingPath pf ords n G p = .timeout ∧ n ≤ H.nodes.length + 1) := by
  cases n with
  | zero => exact .inr (.inr ⟨rfl, Nat.zero_le _⟩)
  | succ n =>
    rcases augmentingPath_search_ren (pf := pf) (hP.but hH) hp hp.symmetric (fun v _ => by simp) ho ho n with
      ⟨-, h2, h3⟩ | ⟨f, P, v, w, hE, -, h2⟩ | ⟨-, h2, h3⟩
    · exact .inl ⟨h2, h3⟩
    · rw [List.map_id, Forest.ren_id] at h2
      rw [h2]
      have hF := hE.forest
      have hv := hE.even_v
      have hv0 : P v ≠ [] := by intro e; rw [e] at hv; simp at hv
      have hlen := hF.length_le hH v
      unfold evenPath
      simp only [_root_.id]
      rw [hF.path]
      by_cases hn : n < (P v).length
      · rw [if_pos hn, Out.timeout_bind]
        exact .inr (.inr ⟨rfl, by omega⟩)
      rw [if_neg hn, if_neg hv0, Out.ok_bind]
      simp only
      by_cases hl : (P v).getLast? = (P w).getLast?
      · obtain ⟨B, base, s, hB, hFd⟩ := hF.found hH hp hv hE.even_w hE.adj hl
        exact (cyclic_odd hFd.cyclic hFd.odd hcol).elim
      · have hl' : ((P v).getLast? == (P w).getLast?) = false := by simpa using hl
        rw [hl']
        simp only [Bool.false_eq_true, if_false]
        obtain ⟨a1, a2⟩ := hF.augmenting hH hp hv hE.even_w hE.adj hl
        exact .inr (.inl ⟨_, rfl, a1, a2⟩)
    · exact .inr (.inr ⟨h2, by omega⟩)

theorem augment_inside (hg : g.Lawful) (hs : p.Symmetric) (hi : p.Inside g) {path : List Nat}
    (hpath : IsPath (g.withPairs p) path) (hev : path.length % 2 = 0) :
    ∃ p1, p.augment path = .ok p1 ∧ p1.Symmetric ∧ p1.Inside g ∧ ∀ x y, p1.get x = some y → g.Adj x y ∨ p.get x = some y := by
  obtain ⟨p1, e1, m1⟩ := augment_matches (withPairs_lawful hg hs hi) (withPairs_matches hg hs hi) hpath.nodup hpath.chain hev
  refine ⟨p1, e1, m1.symmetric, fun v w h => ?_, fun x y h => (withPairs_adj hg hi).1 (m1.adj' h)⟩
  exact m1.mem_left (withPairs_lawful hg hs hi) h

theorem maximumMatching_plus_bip (hg : g.Lawful) (he : g.edges.Nodup) {col : Nat → Bool} (hcol : ∀ u v, g.Adj u v → col u ≠ col v) (k : Nat) :
    ∀ {p : Pairing} {ords : List Bool → Nat → HashOrder} {n : Nat}, p.Symmetric → p.Inside g →
    (∀ u v, p.get u = some v → col u ≠ col v) → (∀ l i, (ords l i).Valid) →
    g.nodes.length ≤ p.order + 2 * k + 1 → g.nodes.length + k + 3 ≤ n →
    ∃ q, maximumMatching pf n ords g p = .ok q ∧ q.Symmetric ∧ q.Inside g ∧ (∃ A c, Cert (g.withPairs q) q A c) ∧
      (∀ u v, q.get u = some v → g.Adj u v ∨ p.get u = some v) ∧ ∀ x, p.hasNode x = true → q.hasNode x = true := by
  have colH : ∀ {p : Pairing}, p.Inside g → (∀ u v, p.get u = some v → col u ≠ col v) →
      ∀ u v, (g.withPairs p).Adj u v → col u ≠ col v := by
    intro p hi hc u v h
    rcases (withPairs_adj hg hi).1 h with h | h
    · exact hcol u v h
    · exact hc u v h
  have base : ∀ {p : Pairing} {ords : List Bool → Nat → HashOrder} {n : Nat}, p.Symmetric → p.Inside g →
      (∀ u v, p.get u = some v → col u ≠ col v) → (∀ l i, (ords l i).Valid) →
      (∃ A c, Cert (g.withPairs p) p A c) → g.nodes.length + 3 ≤ n → maximumMatching pf n ords g p = .ok p := by
    rintro p ords n hs hi hc ho ⟨A, c, hC⟩ hn
    obtain ⟨n, rfl⟩ : ∃ m, n = m + 1 := ⟨n - 1, by omega⟩
    have hH := withPairs_lawful hg hs hi
    have hp := withPairs_matches hg hs hi
    unfold maximumMatching
    rcases augmentingPath_plus_bip (pf := pf) (withPairs_plus hg hs) hH hp (colH hi hc) (ho []) n with ⟨h1, -⟩ | ⟨path, h1, h2, h3⟩ | ⟨-, h2⟩
    · rw [h1]; rfl
    · obtain ⟨M, hM, hl⟩ := larger_of_augmenting hH hp h2 h3
      have := hC.maximum hH hp hM
      omega
    · have : (g.withPairs p).nodes = g.nodes := rfl
      rw [this] at h2; omega
  induction k with
  | zero =>
    intro p ords n hs hi hc ho hk hn
    obtain ⟨n, rfl⟩ : ∃ m, n = m + 1 := ⟨n - 1, by omega⟩
    have hH := withPairs_lawful hg hs hi
    have hp := withPairs_matches hg hs hi
    rcases augmentingPath_plus_bip (pf := pf) (withPairs_plus hg hs) hH hp (colH hi hc) (ho []) n with ⟨h1, h2⟩ | ⟨path, h1, h2, h3⟩ | ⟨-, h2⟩
    · exact ⟨p, by unfold maximumMatching; rw [h1]; rfl, hs, hi, h2, fun _ _ h => .inr h, fun _ h => h⟩
    · exfalso
      obtain ⟨p1, e1, m1⟩ := augment_matches hH hp h3.nodup h3.chain h2.even
      have := h2.order hs h3.ne e1
      have := card_exposed hH m1
      have e : (g.withPairs p).nodes = g.nodes := rfl
      rw [e] at this; omega
    · have : (g.withPairs p).nodes = g.nodes := rfl
      rw [this] at h2; omega
  | succ k ih =>
    intro p ords n hs hi hc ho hk hn
    obtain ⟨n, rfl⟩ : ∃ m, n = m + 1 := ⟨n - 1, by omega⟩
    have hH := withPairs_lawful hg hs hi
    have hp := withPairs_matches hg hs hi
    rcases augmentingPath_plus_bip (pf := pf) (withPairs_plus hg hs) hH hp (colH hi hc) (ho []) n with ⟨h1, h2⟩ | ⟨path, h1, h2, h3⟩ | ⟨-, h2⟩
    · exact ⟨p, by unfold maximumMatching; rw [h1]; rfl, hs, hi, h2, fun _ _ h => .inr h, fun _ h => h⟩
    · obtain ⟨p1, e1, s1, i1, a1⟩ := augment_inside hg hs hi h3 h2.even
      have ho1 := h2.order hs h3.ne e1
      have c1 : ∀ u v, p1.get u = some v → col u ≠ col v := by
        intro u v h
        rcases a1 u v h with h | h
        · exact hcol u v h
        · exact hc u v h
      obtain ⟨q, b1, b2, b3, b4, b5, b6⟩ := ih s1 i1 c1 (fun l i => ho (false :: l) i) (n := n) (by omega) (by omega)
      have c2 : ∀ u v, q.get u = some v → g.Adj u v ∨ p.get u = some v := by
        intro u v h
        rcases b5 u v h with h | h
        · exact .inl h
        · exact a1 u v h
      refine ⟨q, ?_, b2, b3, b4, c2, ?_⟩
      · unfold maximumMatching
        rw [h1, Out.ok_bind]
        simp only
        rw [e1, Out.ok_bind, b1, Out.ok_bind]
        refine base b2 b3 (fun u v h => ?_) (fun l i => ho (true :: l) i) b4 (by omega)
        rcases c2 u v h with h | h
        · exact hcol u v h
        · exact hc u v h
      · intro x hx
        exact b6 x ((h2.covers hs e1 x).2 (.inl hx))
    · have : (g.withPairs p).nodes = g.nodes := rfl
      rw [this] at h2; omega

end
end Gamma
