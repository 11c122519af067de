import Verif.Proofs.Cliques
import Verif.Props.Looks
import Verif.Props.Left
import Verif.Props.Touch
import Verif.Props.Graph
/-
Property C90: `maximum_matching` on graphs with small components, and components with no three disjoint edges.
-/
namespace Gamma
open Pairing Blossom

section
variable (g : GraphI) (hg : g.Lawful) (he : g.edges.Nodup) (hM : g.EasyParts) (p : Pairing) (hp : p.Matches g) (pf : Platform)
include hg he hM hp

/-- Every path the search finds is improving. -/
theorem easy_good : ∀ r path, Visits pf g p r → Finds pf g r path → r.Improving path := by
  rintro r path hv ⟨ords, n, ho, e⟩
  exact (augmentingPath_easy ho n hg he (hv.matches_ hg he hp) hM e).1.improving

/-- **C90.**  On a graph each component of which is a clique, or has no two odd cycles that share a node, or has no three disjoint edges,
or at most two neighbors in excess of two (C91),
`maximum_matching`, started from any matching, returns for every large enough budget, with a maximum matching in which every node that was paired is
paired still. -/
theorem C90_total (hh : Headroom pf g) (ords : List Bool → Nat → HashOrder) (ho : ∀ l i, (ords l i).Valid) :
    ∃ N, ∀ fuel, N ≤ fuel → ∃ q, maximumMatching pf fuel ords g p = .ok q ∧ q.Matches g ∧
      (∀ x, p.hasNode x = true → q.hasNode x = true) ∧ ∀ ord : HashOrder, ord.Valid → IsMaximum g (q.edges ord) := by
  obtain ⟨N, hN⟩ := C42_ends_good_partial g hg he p hp pf hh (easy_good g hg he hM p hp pf) ords ho
  refine ⟨N, fun fuel hf => ?_⟩
  obtain ⟨q, h⟩ := hN fuel hf
  exact ⟨q, h, (C38_result_is_matching g hg he p hp pf ords ho fuel q h).1,
    C44_covers_good_partial g hg he p hp pf hh (easy_good g hg he hM p hp pf) ords ho fuel q h,
    fun ord hord => C39_result_is_maximum g hg he p hp pf ords ho fuel q h ord hord⟩

/-- **C90, no panic**, with any budget. -/
theorem C90_no_panic (hh : Headroom pf g) (ords : List Bool → Nat → HashOrder) (ho : ∀ l i, (ords l i).Valid) (fuel : Nat)
    (m : String) : maximumMatching pf fuel ords g p ≠ .panic m :=
  C41_no_panic_good_partial g hg he p hp pf hh (easy_good g hg he hM p hp pf) ords ho fuel m

/-- **C90, nothing is lost**, however the call ends: what was paired is paired in what is left of the pairing. -/
theorem C90_keeps (ords : List Bool → Nat → HashOrder) (ho : ∀ l i, (ords l i).Valid) (fuel : Nat) :
    (∀ x, p.hasNode x = true → (maximumMatchingLeft pf fuel ords g p).1.hasNode x = true) ∧
      p.order ≤ (maximumMatchingLeft pf fuel ords g p).1.order := by
  have h : ∀ r, Visits pf g p r → (∀ x, p.hasNode x = true → r.hasNode x = true) ∧ p.order ≤ r.order := by
    intro r h
    induction h with
    | start => exact ⟨fun x h => h, le_refl _⟩
    | step r r' path hv hf ha ih =>
      have hm := (hv.matches_ hg he hp).symmetric
      have hgood := easy_good g hg he hM p hp pf r path hv hf
      refine ⟨fun x hx => (hgood.covers hm ha x).2 (.inl (ih.1 x hx)), ?_⟩
      have := hgood.order hm ha
      omega
  exact h _ (maximumMatchingLeft_visits (pf := pf) (g := g) fuel p ho)

/-- **C90, effort.**  Every augmentation gains exactly one pair, so the number of searches is the one of C81, and there are no more
searches than nodes, plus one. -/
theorem C90_searches (ords : List Bool → Nat → HashOrder) (ho : ∀ l i, (ords l i).Valid) (fuel : Nat) (q : Pairing) (t : Tally)
    (h : maximumMatchingTally pf fuel ords g p = .ok (q, t)) (ord : HashOrder) (hord : ord.Valid) (M : List (Nat × Nat))
    (hmax : IsMaximum g M) :
    (p.edges ord).length + t.augmentations = M.length ∧ t.searches = 2 * (M.length - (p.edges ord).length) + 1 ∧
      t.depth = M.length - (p.edges ord).length + 1 ∧ t.searches ≤ g.order + 1 := by
  obtain ⟨h1, h2⟩ := maximumMatchingTally_spec hg he fuel hp.symmetric (fun v w e => hg.adj_src (hp.adj' e)) ho h
  obtain ⟨h3, h4⟩ := maximumMatchingTally_order hg he (fun p path hp ⟨ords, n, ho, e⟩ => (augmentingPath_easy ho n hg he hp hM e).1)
    fuel hp ho h
  have h5 := (C81_same_outcome pf fuel ords g p).1 q |>.2 ⟨t, h⟩
  have h6 := C39_result_is_maximum g hg he p hp pf ords ho fuel q h5 ord hord
  have h7 := h6.2 M hmax.1
  have h8 := hmax.2 _ h6.1
  have h9 := order_eq hord hp.symmetric
  have h10 := order_eq hord h3.symmetric
  have h11 := card_exposed hg h3
  rw [hg.order_eq]
  omega

/-- **C90, polynomial time.**  The call asks for neighbors at most `(n + 1) (n / 2 + 1) (n + m)` times in all, self-loops aside. -/
theorem C90_polynomial (ords : List Bool → Nat → HashOrder) (ho : ∀ l i, (ords l i).Valid) (fuel : Nat) (q : Pairing)
    (looks : List (List Nat)) (h : maximumMatchingLooks pf fuel ords g p = .ok (q, looks)) :
    looks.flatten.sum ≤ (g.order + 1) * ((g.order / 2 + g.loops + 1) * (g.order + g.size)) := by
  obtain ⟨⟨t, h1, h2⟩, h3⟩ := C85_looks_of_call g hg he p hp pf ords ho fuel q looks h
  have h0 := (C81_same_outcome pf fuel ords g p).1 q |>.2 ⟨t, h1⟩
  have h4 := (C90_searches g hg he hM p hp pf ords ho fuel q t h1 _root_.id HashOrder.id_valid _
    (C39_result_is_maximum g hg he p hp pf ords ho fuel q h0 _root_.id HashOrder.id_valid)).2.2.2
  rw [List.sum_flatten]
  refine (sum_le_mul (l := looks.map List.sum) (b := (g.order / 2 + g.loops + 1) * (g.order + g.size)) ?_).trans ?_
  · intro k hk
    obtain ⟨ks, hks, rfl⟩ := List.mem_map.1 hk
    exact h3 ks hks
  · rw [List.length_map, h2]
    exact Nat.mul_le_mul_right _ h4

end

/-- **C90, which components qualify**: every one with at most five nodes (so every graph with at most five nodes), and every one two of
whose nodes are on all its edges. -/
theorem C90_qualify (g : GraphI) (hg : g.Lawful) (v : Nat) (hv : v ∈ g.nodes) :
    (g.order ≤ 5 → g.NarrowAt v) ∧
    ((∀ l : List Nat, l.Nodup → (∀ x ∈ l, g.simple.Reachable v x) → l.length ≤ 5) → g.NarrowAt v) ∧
    (∀ s t, (∀ x y, g.simple.Reachable v x → g.Adj x y → x = s ∨ x = t ∨ y = s ∨ y = t) → g.NarrowAt v) := by
  have key : (∀ l : List Nat, l.Nodup → (∀ x ∈ l, g.simple.Reachable v x) → l.length ≤ 5) → g.NarrowAt v := by
    intro h a b c d e f ha hc he h1 h2 h3 hnd
    have hb := ha.trans (Adj.reach hg h1)
    have hd := hc.trans (Adj.reach hg h2)
    have hf := he.trans (Adj.reach hg h3)
    have := h _ hnd (by
      intro x hx
      simp only [List.mem_cons, List.not_mem_nil, or_false] at hx
      rcases hx with rfl | rfl | rfl | rfl | rfl | rfl <;> assumption)
    simp at this
  refine ⟨fun h => key (fun l hl hr => ?_), key, ?_⟩
  · have := (hl.subperm (fun x hx => reach_mem hg (hr x hx) hv)).length_le
    rw [hg.order_eq] at h
    omega
  · intro s t h a b c d e f ha hc he h1 h2 h3 hnd
    have pick : ∀ x y, (x = s ∨ x = t ∨ y = s ∨ y = t) → ∃ u, (u = x ∨ u = y) ∧ (u = s ∨ u = t) := by
      rintro x y (h | h | h | h)
      exacts [⟨x, .inl rfl, .inl h⟩, ⟨x, .inl rfl, .inr h⟩, ⟨y, .inr rfl, .inl h⟩, ⟨y, .inr rfl, .inr h⟩]
    obtain ⟨u1, m1, k1⟩ := pick a b (h a b ha h1)
    obtain ⟨u2, m2, k2⟩ := pick c d (h c d hc h2)
    obtain ⟨u3, m3, k3⟩ := pick e f (h e f he h3)
    simp only [List.nodup_cons, List.mem_cons, List.not_mem_nil, or_false, not_or] at hnd
    obtain ⟨⟨n1, n2, n3, n4, n5⟩, ⟨n6, n7, n8, n9⟩, ⟨n10, n11, n12⟩, ⟨n13, n14⟩, n15, -⟩ := hnd
    have d12 : u1 ≠ u2 := by rcases m1 with rfl | rfl <;> rcases m2 with rfl | rfl <;> assumption
    have d13 : u1 ≠ u3 := by rcases m1 with rfl | rfl <;> rcases m3 with rfl | rfl <;> assumption
    have d23 : u2 ≠ u3 := by rcases m2 with rfl | rfl <;> rcases m3 with rfl | rfl <;> assumption
    clear n1 n2 n3 n4 n5 n6 n7 n8 n9 n10 n11 n12 n13 n14 n15 m1 m2 m3
    omega

/-- **C90, small components.**  On a graph none of whose components has more than five nodes, from any matching. -/
theorem C90_small_components (g : GraphI) (hg : g.Lawful) (he : g.edges.Nodup)
    (h5 : ∀ v ∈ g.nodes, ∀ l : List Nat, l.Nodup → (∀ x ∈ l, g.simple.Reachable v x) → l.length ≤ 5)
    (p : Pairing) (hp : p.Matches g) (pf : Platform) (hh : Headroom pf g) (ords : List Bool → Nat → HashOrder)
    (ho : ∀ l i, (ords l i).Valid) :
    ∃ N, ∀ fuel, N ≤ fuel → ∃ q, maximumMatching pf fuel ords g p = .ok q ∧ q.Matches g ∧
      (∀ x, p.hasNode x = true → q.hasNode x = true) ∧ ∀ ord : HashOrder, ord.Valid → IsMaximum g (q.edges ord) :=
  C90_total g hg he (fun v hv => .inr (.inr (.inl ((C90_qualify g hg v hv).2.1 (h5 v hv))))) p hp pf hh ords ho

/-- **C90, five nodes.**  On every graph with at most five nodes, from any matching. -/
theorem C90_five_nodes (g : GraphI) (hg : g.Lawful) (he : g.edges.Nodup) (h5 : g.order ≤ 5) (p : Pairing) (hp : p.Matches g)
    (pf : Platform) (hh : Headroom pf g) (ords : List Bool → Nat → HashOrder) (ho : ∀ l i, (ords l i).Valid) :
    ∃ N, ∀ fuel, N ≤ fuel → ∃ q, maximumMatching pf fuel ords g p = .ok q ∧ q.Matches g ∧
      (∀ x, p.hasNode x = true → q.hasNode x = true) ∧ ∀ ord : HashOrder, ord.Valid → IsMaximum g (q.edges ord) :=
  C90_total g hg he (fun v hv => .inr (.inr (.inl ((C90_qualify g hg v hv).1 h5)))) p hp pf hh ords ho

/-- **C90, the limits.**  Five nodes cannot be made six, nor three disjoint edges four: this graph with six nodes makes every call
panic, with no matching to start with. -/
theorem C90_six_nodes_panic (b : Bool) (ords : List Bool → Nat → HashOrder) (ho : ∀ l i, (ords l i).Valid) (fuel : Nat) (hf : 20 ≤ fuel) :
    panicG.toI.order = 6 ∧ panicG.toI.Lawful ∧ panicG.toI.edges.Nodup ∧ Headroom (pf64 b) panicG.toI ∧
    maximumMatching (pf64 b) fuel ords panicG.toI Pairing.new = .panic "even path augmentation" :=
  ⟨by decide +kernel, graphOf_lawful _, graphOf_edges _, headroom_of (by cases b <;> decide +kernel), C41_panics b ords ho fuel hf⟩

/-! #### Examples -/

/-- Two triangles that share a node, and two more edges: five nodes. -/
def fiveG : DefaultGraph := graphOf [(0, 1), (0, 2), (1, 2), (0, 3), (0, 4), (3, 4), (1, 3), (2, 2)]

/-- Two nodes adjacent to each other and to five more, and apart from them the graph with five nodes. -/
def hubsG : DefaultGraph := graphOf ([(10, 11), (10, 12), (11, 12), (10, 13), (11, 13), (14, 10), (14, 11), (10, 15), (11, 16)] ++
  [(0, 1), (0, 2), (1, 2), (0, 3), (0, 4), (3, 4), (1, 3), (2, 2)])

theorem hubsG_easy : hubsG.toI.EasyParts := by
  have hl : hubsG.toI.Lawful := graphOf_lawful _
  have k1 : ∀ x ∈ [10, 11, 12, 13, 14, 15, 16], ∀ y ∈ hubsG.toI.nbr x,
      y ∈ [10, 11, 12, 13, 14, 15, 16] ∧ (x = 10 ∨ x = 11 ∨ y = 10 ∨ y = 11) := by decide +kernel
  have k2 : ∀ x ∈ [0, 1, 2, 3, 4], ∀ y ∈ hubsG.toI.nbr x, y ∈ [0, 1, 2, 3, 4] := by decide +kernel
  have k3 : ∀ x ∈ hubsG.toI.nodes, x ∈ [10, 11, 12, 13, 14, 15, 16] ∨ x ∈ [0, 1, 2, 3, 4] := by decide +kernel
  intro v hv
  refine .inr (.inr (.inl ?_))
  rcases k3 v hv with h | h
  · refine (C90_qualify _ hl v hv).2.2 10 11 (fun x y hx hxy => (k1 x ?_ y (GraphI.mem_nbr.2 hxy)).2)
    exact reach_induct hl (Q := (· ∈ [10, 11, 12, 13, 14, 15, 16])) (fun a b ha hb => (k1 a ha b (GraphI.mem_nbr.2 hb)).1) hx h
  · refine (C90_qualify _ hl v hv).2.1 (fun l hnd hr => ?_)
    have := (hnd.subperm (l₂ := [0, 1, 2, 3, 4]) (fun x hx =>
      reach_induct hl (Q := (· ∈ [0, 1, 2, 3, 4])) (fun a b ha hb => k2 a ha b (GraphI.mem_nbr.2 hb)) (hr x hx) h)).length_le
    simpa using this

theorem not_mixed_of {g : GraphI} (hg : g.Lawful) {a b c d : Nat} (h : b ∈ g.nbr a ∧ c ∈ g.nbr b ∧ a ∈ g.nbr c ∧ d ∈ g.nbr a ∧ b ∈ g.nbr d)
    (hn : [a, b, c, d].Nodup) (hcd : d ∉ g.nbr c) : ¬ g.CliquesOrApart := by
  obtain ⟨h1, h2, h3, h4, h5⟩ := h
  simp only [GraphI.mem_nbr] at h1 h2 h3 h4 h5 hcd
  intro hM
  have rc := (Adj.reach hg h1).trans (Adj.reach hg h2)
  have rd := Adj.reach hg h4
  simp only [List.nodup_cons, List.mem_cons, List.not_mem_nil, or_false, not_or] at hn
  rcases hM a (hg.adj_src h1) with hC | hA
  · exact hcd (hC c d rc rd hn.2.2.1)
  · have t1 : OddCycle g [a, b, c] := by
      refine ⟨by simp; tauto, by simp, by simp, ?_, ?_⟩
      · simp only [List.isChain_cons_cons]; exact ⟨h1, h2, .singleton _⟩
      · intro x y hx hy; simp at hx hy; subst hx hy; exact h3
    have t2 : OddCycle g [a, d, b] := by
      refine ⟨by simp; tauto, by simp, by simp, ?_, ?_⟩
      · simp only [List.isChain_cons_cons]; exact ⟨h4, h5, .singleton _⟩
      · intro x y hx hy; simp at hx hy; subst hx hy; exact hg.adj_symm _ _ h1
    have := hA _ _ a c t1 t2 (by simp) (by simp) (.refl _) (by simp)
    simp at this
    tauto

/-- The hypotheses hold of it, with a matching of two pairs, and those of C87 do not. -/
example (b : Bool) : hubsG.toI.Lawful ∧ hubsG.toI.edges.Nodup ∧ hubsG.toI.EasyParts ∧ ¬ hubsG.toI.CliquesOrApart ∧
    hubsG.toI.order = 12 ∧ (pairingOf [(10, 11), (1, 2)]).Matches hubsG.toI ∧ Headroom (pf64 b) hubsG.toI ∧
    ∃ q, maximumMatching (pf64 b) 30 (fun _ _ => _root_.id) hubsG.toI (pairingOf [(10, 11), (1, 2)]) = .ok q ∧ q.order = 8 := by
  refine ⟨graphOf_lawful _, graphOf_edges _, hubsG_easy,
    not_mixed_of (a := 10) (b := 11) (c := 12) (d := 13) (graphOf_lawful _) (by decide +kernel) (by decide) (by decide +kernel),
    by decide +kernel, matches_of_test (by decide +kernel), headroom_of (by cases b <;> decide +kernel), ?_⟩
  have h : ∀ b, (maximumMatching (pf64 b) 30 (fun _ _ => _root_.id) hubsG.toI (pairingOf [(10, 11), (1, 2)]) >>=
      fun q => (if q.order = 8 then .ok () else .timeout : Out Unit)) = .ok () := by decide +kernel
  have h := h b
  rw [Out.bind_eq_ok] at h
  obtain ⟨q, e, h⟩ := h
  split at h
  · exact ⟨q, e, by assumption⟩
  · cases h

/-- Five nodes, one pair to start with; the one blossom is found, and the result pairs four of the nodes. -/
example (b : Bool) : fiveG.toI.Lawful ∧ fiveG.toI.edges.Nodup ∧ fiveG.toI.order ≤ 5 ∧ ¬ fiveG.toI.CliquesOrApart ∧
    (pairingOf [(1, 3)]).Matches fiveG.toI ∧ Headroom (pf64 b) fiveG.toI ∧
    ∃ q, maximumMatching (pf64 b) 30 (fun _ _ => _root_.id) fiveG.toI (pairingOf [(1, 3)]) = .ok q ∧ q.order = 4 := by
  refine ⟨graphOf_lawful _, graphOf_edges _, by decide +kernel,
    not_mixed_of (a := 0) (b := 1) (c := 2) (d := 3) (graphOf_lawful _) (by decide +kernel) (by decide) (by decide +kernel),
    matches_of_test (by decide +kernel), headroom_of (by cases b <;> decide +kernel), ?_⟩
  have h : ∀ b, (maximumMatching (pf64 b) 30 (fun _ _ => _root_.id) fiveG.toI (pairingOf [(1, 3)]) >>=
      fun q => (if q.order = 4 then .ok () else .timeout : Out Unit)) = .ok () := by decide +kernel
  have h := h b
  rw [Out.bind_eq_ok] at h
  obtain ⟨q, e, h⟩ := h
  split at h
  · exact ⟨q, e, by assumption⟩
  · cases h

end Gamma
