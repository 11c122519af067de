import Verif.Proofs.AugPath
import Verif.Proofs.Fuel
/-
The outcome of `augmenting_path`, for every budget.
-/
namespace Gamma
open Pairing Blossom

theorem Blossom.Con.loops_le {g g' : GraphI} {p p' : Pairing} {b : Blossom} {base : Nat}
    (h : Con g p b base g' p') :
    g'.loops + b.path.countP (fun v => (g.nbr v).contains v) ≤ g.loops := by
  have h1 : g'.loops ≤ (g.nodes.filter (fun x => !b.path.contains x)).countP (fun v => (g.nbr v).contains v) := by
    unfold GraphI.loops
    rw [h.nodes', List.countP_cons]
    have : (g'.nbr b.id).contains b.id = false := by
      rw [Bool.eq_false_iff]
      intro hc
      exact (h.loop' b.id (GraphI.mem_nbr.1 (by simpa using hc))).1 rfl
    rw [this]
    simp only [Bool.false_eq_true, if_false, Nat.add_zero]
    refine List.countP_mono_left ?_
    intro x _ hx
    exact List.contains_iff_mem.2 (GraphI.mem_nbr.2 (h.loop' x (GraphI.mem_nbr.1 (by simpa using hx))).2.2)
  have h2 : (g.nodes.filter (fun x => b.path.contains x)).Perm b.path := by
    rw [List.perm_ext_iff_of_nodup (h.lawful.nodes_nodup.filter _) h.flower.nodup]
    intro x
    simp only [List.mem_filter, List.contains_iff_mem, and_iff_right_iff_imp]
    exact h.flower.sub x
  have h3 : g.loops = (g.nodes.filter (fun x => b.path.contains x)).countP (fun v => (g.nbr v).contains v) +
      (g.nodes.filter (fun x => !b.path.contains x)).countP (fun v => (g.nbr v).contains v) := by
    unfold GraphI.loops
    rw [← List.countP_append]
    refine (List.Perm.countP_eq _ ?_).symm
    exact List.filter_append_perm _ _
  rw [h2.countP_eq] at h3
  omega

theorem Found.depth_lt {g g' : GraphI} {p p' : Pairing} {b : Blossom} {base : Nat} {s : List Nat}
    (hc : Con g p b base g' p') (h : Found g p b.path base s) : g'.depth < g.depth := by
  have h1 := hc.loops_le
  have h2 := hc.length_nodes
  have h3 := h.odd
  unfold GraphI.depth
  rcases h.shrinks with h4 | h4
  · omega
  · have : 0 < b.path.countP (fun v => (g.nbr v).contains v) := by
      rw [List.countP_pos_iff]
      exact ⟨base, h.flower.base_mem, List.contains_iff_mem.2 (GraphI.mem_nbr.2 h4)⟩
    omega

theorem Found.length_le {g g' : GraphI} {p p' : Pairing} {b : Blossom} {base : Nat} {s : List Nat}
    (hc : Con g p b base g' p') (h : Found g p b.path base s) : g'.nodes.length ≤ g.nodes.length := by
  have h2 := hc.length_nodes
  have h3 := h.odd
  omega

/-- What a run of `augmenting_path(g, p)` with a budget `n` may end in. -/
def APOut (pf : Platform) (g : GraphI) (p : Pairing) (n : Nat) : Out (Option (List Nat)) → Prop
  | .ok none => ∃ A c, Cert g p A c
  | .ok (some path) => IsPath g path ∧ ∃ M, IsMatching g M ∧ p.order < 2 * M.length
  | .err _ => False
  | .panic m => ¬ Headroom pf g ∧
      ((m = overflowMsg ∧ pf.overflowChecks = true) ∨ (m = "bad graph" ∧ pf.overflowChecks = false))
  | .timeout => n ≤ g.nodes.length + g.depth + 1

section
variable {g : GraphI} {p q : Pairing} {pf : Platform}

/-- The part of `process_blossom` before the recursive call. -/
theorem processBlossom_eq (hg : g.Lawful) (he : g.edges.Nodup) (hp : p.Matches g) (hq : q.Matches g) (hpq : p.get = q.get)
    {ord ord' : HashOrder} (ho : ord.Valid) (ho' : ord'.Valid) {fuel : Nat}
    {rec rec' : GraphI → Pairing → Out (Option (List Nat))} {left right B s : List Nat} {base : Nat}
    (hB : Blossom.newLoop right [] left = .ok B) (hF : Found g p B base s) :
    (∃ m, processBlossom pf ord fuel rec left right g p = .panic m ∧
      processBlossom pf ord' fuel rec' left right g q = .panic m ∧ ¬ Headroom pf g ∧
      ((m = overflowMsg ∧ pf.overflowChecks = true) ∨ (m = "bad graph" ∧ pf.overflowChecks = false))) ∨
    (∃ b g' p' q', b.path = B ∧ Con g p b base g' p' ∧ Con g q b base g' q' ∧ p'.get = q'.get ∧
      (Headroom pf g → Headroom pf g') ∧
      processBlossom pf ord fuel rec left right g p = (rec g' p' >>= fun r =>
        match r with
        | some path => b.lift fuel path g >>= fun lifted => .ok (some lifted)
        | none => .ok none) ∧
      processBlossom pf ord' fuel rec' left right g q = (rec' g' q' >>= fun r =>
        match r with
        | some path => b.lift fuel path g >>= fun lifted => .ok (some lifted)
        | none => .ok none)) := by
  have hne : g.nodes ≠ [] := List.ne_nil_of_mem (hF.flower.sub _ hF.flower.base_mem)
  obtain ⟨mx, hmx⟩ : ∃ m, g.nodes.max? = some m := by
    cases h : g.nodes.max? with
    | none => rw [List.max?_eq_none_iff] at h; exact absurd h hne
    | some m => exact ⟨m, rfl⟩
  have hmx' := List.max?_eq_some_iff.1 hmx
  have hFq : Flower g q B base := ⟨hF.flower.nodup, hF.flower.sub, hF.flower.base_mem, hpq ▸ hF.flower.base_out, hpq ▸ hF.flower.inner⟩
  have hdepth : 1 ≤ g.depth := by
    unfold GraphI.depth
    rcases hF.shrinks with h | h
    · have := (hF.flower.nodup.subperm hF.flower.sub).length_le
      omega
    · have : 0 < g.loops := by
        unfold GraphI.loops
        rw [List.countP_pos_iff]
        exact ⟨base, hF.flower.sub _ hF.flower.base_mem, List.contains_iff_mem.2 (GraphI.mem_nbr.2 h)⟩
      omega
  have hmaxn : maxNode g = .ok mx := by unfold maxNode; rw [hmx]
  -- with a given id that is free
  have go : ∀ id, pf.succ mx = .ok id → FreeId g ⟨id, B⟩ → (Headroom pf g → id ≤ mx + 1) →
    (∃ b g' p' q', b.path = B ∧ Con g p b base g' p' ∧ Con g q b base g' q' ∧ p'.get = q'.get ∧
      (Headroom pf g → Headroom pf g') ∧
      processBlossom pf ord fuel rec left right g p = (rec g' p' >>= fun r =>
        match r with
        | some path => b.lift fuel path g >>= fun lifted => .ok (some lifted)
        | none => .ok none) ∧
      processBlossom pf ord' fuel rec' left right g q = (rec' g' q' >>= fun r =>
        match r with
        | some path => b.lift fuel path g >>= fun lifted => .ok (some lifted)
        | none => .ok none)) := by
    intro i hid hfree hle
    obtain ⟨r, hr, hc⟩ := contract_ok (b := ⟨i, B⟩) ho hg he hp hfree hF.flower
    obtain ⟨r', hr', hc'⟩ := contract_ok (b := ⟨i, B⟩) ho' hg he hq hfree hFq
    rw [hr] at hr'; injection hr' with hr'; subst hr'
    refine ⟨⟨i, B⟩, r.toI, _, _, rfl, hc, hc', ?_, ?_, ?_, ?_⟩
    · funext x
      refine Option.ext (fun y => ?_)
      rw [hc.get', hc'.get', hpq]
    · intro hh v hv
      have hd := Found.depth_lt hc hF
      rcases hc.mem_nodes.1 hv with h1 | h1
      · subst h1
        have := hh mx hmx'.1
        have := hle hh
        omega
      · have := hh v h1.1
        omega
    · unfold processBlossom Blossom.new
      rw [hmaxn, Out.ok_bind, hid, Out.ok_bind, hB, Out.ok_bind, Out.ok_bind, hr, Out.expect_ok, Out.ok_bind]
      congr 1
    · unfold processBlossom Blossom.new
      rw [hmaxn, Out.ok_bind, hid, Out.ok_bind, hB, Out.ok_bind, Out.ok_bind, hr, Out.expect_ok, Out.ok_bind]
      congr 1
  by_cases hlt : mx < pf.usizeMax
  · right
    refine go (mx + 1) (by simp [Platform.succ, hlt]) ?_ (fun _ => Nat.le_refl _)
    intro v hv _ e
    have := hmx'.2 v hv
    simp only at e
    omega
  · have hnh : ¬ Headroom pf g := fun h => by have := h mx hmx'.1; omega
    cases hov : pf.overflowChecks with
    | true =>
      left
      refine ⟨overflowMsg, ?_, ?_, hnh, .inl ⟨rfl, rfl⟩⟩ <;>
      · unfold processBlossom
        rw [hmaxn, Out.ok_bind]
        simp [Platform.succ, hlt, hov]
    | false =>
      have hid : pf.succ mx = .ok 0 := by simp [Platform.succ, hlt, hov]
      by_cases hfree : FreeId g ⟨0, B⟩
      · right
        exact go 0 hid hfree (fun h => absurd h hnh)
      · left
        unfold FreeId at hfree
        push Not at hfree
        obtain ⟨v, hv, hvb, hv0⟩ := hfree
        refine ⟨"bad graph", ?_, ?_, hnh, .inr ⟨rfl, rfl⟩⟩ <;>
        · unfold processBlossom Blossom.new
          rw [hmaxn, Out.ok_bind, hid, Out.ok_bind, hB, Out.ok_bind, Out.ok_bind,
            contractGraph_err (b := ⟨0, B⟩) hg hv hvb hv0, Out.expect_err, Out.panic_bind]

/-- The outcome of `augmenting_path`, and its independence of the iteration orders and of how the mates are
stored. -/
theorem augmentingPath_spec {ords ords' : Nat → HashOrder} (ho : ∀ i, (ords i).Valid) (ho' : ∀ i, (ords' i).Valid) (n : Nat) :
    ∀ {g : GraphI} {p q : Pairing}, g.Lawful → g.edges.Nodup → p.Matches g → q.Matches g → p.get = q.get →
    APOut pf g p n (augmentingPath pf ords n g p) ∧ augmentingPath pf ords' n g q = augmentingPath pf ords n g p := by
  induction n with
  | zero => intro g p q _ _ _ _ _; exact ⟨Nat.zero_le _, rfl⟩
  | succ n ih =>
    intro g p q hg he hp hq hpq
    rcases augmentingPath_search (pf := pf) hg hp hq.symmetric (fun v _ => by rw [hpq]) ho ho' n with ⟨h1, h2, h3⟩ | ⟨f, P, v, w, hE, h1, h2⟩ | ⟨h1, h2, h3⟩
    · rw [h1, h2]; exact ⟨h3, rfl⟩
    · rw [h1, h2]
      have hF := hE.forest
      have hv := hE.even_v
      have hw := hE.even_w
      have hv0 : P v ≠ [] := by intro e; rw [e] at hv; simp at hv
      have hlen := hF.length_le hg v
      unfold evenPath
      rw [hF.path]
      by_cases hn : n < (P v).length
      · rw [if_pos hn, Out.timeout_bind, Out.timeout_bind]
        refine ⟨?_, rfl⟩
        show n + 1 ≤ _
        omega
      rw [if_neg hn, if_neg hv0, Out.ok_bind, Out.ok_bind]
      simp only
      by_cases hl : (P v).getLast? = (P w).getLast?
      · have hl' : ((P v).getLast? == (P w).getLast?) = true := by simpa using hl
        rw [if_pos hl', if_pos hl']
        obtain ⟨B, base, s, hB, hFd⟩ := hF.found hg hp hv hw hE.adj hl
        rcases processBlossom_eq (pf := pf) hg he hp hq hpq (ho n) (ho' n) (fuel := n) (rec := augmentingPath pf ords n)
          (rec' := augmentingPath pf ords' n) hB hFd with ⟨m, e1, e2, hnh, hm⟩ | ⟨b, g', p', q', hb, hc, hc', hget, hhr, e1, e2⟩
        · rw [e1, e2]; exact ⟨⟨hnh, hm⟩, rfl⟩
        · subst hb
          rw [e1, e2]
          obtain ⟨i1, i2⟩ := ih hc.lawful' hc.edges' hc.matches' hc'.matches' hget
          rw [i2]
          refine ⟨?_, rfl⟩
          have hd := hFd.depth_lt hc
          have hll := hFd.length_le hc
          have hBl := (hFd.flower.nodup.subperm hFd.flower.sub).length_le
          generalize augmentingPath pf ords n g' p' = o at i1
          cases o with
          | ok r =>
            cases r with
            | none =>
              obtain ⟨A, c, hC⟩ := i1
              exact hFd.cert hc hC
            | some path =>
              obtain ⟨j1, M', j2, j3⟩ := i1
              obtain ⟨M, k1, k2⟩ := hc.lift_matching hFd.cyclic j2
              have k3 := hc.order_eq
              have k4 := hFd.odd
              rw [Out.ok_bind]
              by_cases hf : b.path.length < n
              · obtain ⟨l, e, hl⟩ := lift_ok hc hFd.cyclic j1 hf
                simp only
                rw [e, Out.ok_bind]
                exact ⟨hl, M, k1, by omega⟩
              · obtain ⟨l, e, hl⟩ := lift_ok (fuel := b.path.length + 1) hc hFd.cyclic j1 (by omega)
                simp only
                rcases lift_le (g := g) (show n ≤ b.path.length + 1 by omega) b path with h | h
                · rw [h]
                  show n + 1 ≤ _
                  omega
                · rw [e] at h
                  rw [← h, Out.ok_bind]
                  exact ⟨hl, M, k1, by omega⟩
          | err e => exact i1.elim
          | panic m => exact ⟨fun h => i1.1 (hhr h), i1.2⟩
          | timeout =>
            have : n ≤ g'.nodes.length + g'.depth + 1 := i1
            show n + 1 ≤ _
            omega
      · have hl' : ((P v).getLast? == (P w).getLast?) = false := by simpa using hl
        rw [hl']
        simp only [Bool.false_eq_true, if_false]
        obtain ⟨a1, a2⟩ := hF.augmenting hg hp hv hw hE.adj hl
        obtain ⟨M, m1, m2⟩ := larger_of_augmenting hg hp a1 a2
        exact ⟨⟨a2, M, m1, by omega⟩, trivial⟩
    · rw [h1, h2]
      refine ⟨?_, rfl⟩
      show n + 1 ≤ _
      omega

end
end Gamma
