import Verif.Proofs.Parts5
import Verif.Props.Cliques
import Verif.Proofs.Steer
/-
Property C88: `maximum_matching` treats the parts of a graph that no edge joins as if each were alone.
-/
namespace Gamma
open Pairing Blossom DefaultGraph

/-! ### C88 -/

section
variable {S : Nat → Bool} {g h : GraphI} {p q : Pairing} {pf : Platform}

theorem local_of (hg : g.Lawful) (hh : h.Lawful) (og : g.InEdgeOrder) (oh : h.InEdgeOrder) (he : g.edges.Nodup) (room : Headroom pf g)
    (part : GraphI.PartOn S g h) (hp : p.Matches g) (hq : q.Matches h) (hpq : Pairing.PartOn S p q) : Local pf S g h p q := by
  refine ⟨hg, hh, og, oh, he, room, part, hp, hq, fun v _ hv => ?_⟩
  cases e : p.get v with
  | none =>
    cases e' : q.get v with
    | none => rfl
    | some y => have := ((hpq v y).1 (mate_eq_ok.2 e')).1; rw [mate_eq_ok, e] at this; cases this
  | some y => exact mate_eq_ok.1 ((hpq v y).2 ⟨mate_eq_ok.2 e, hv⟩)

theorem Local.partOn (l : Local pf S g h p q) : Pairing.PartOn S p q := by
  intro x y
  constructor
  · intro e
    have hx := l.mem.1 (l.mat'.mem_left l.lawful' (mate_eq_ok.1 e))
    exact ⟨mate_eq_ok.2 ((l.sub x hx.1 hx.2) ▸ mate_eq_ok.1 e), hx.2⟩
  · rintro ⟨e, hx⟩
    have hxg := l.mat.mem_left l.lawful (mate_eq_ok.1 e)
    exact mate_eq_ok.2 ((l.sub x hxg hx).trans (mate_eq_ok.1 e))

end

section
variable (S : Nat → Bool) (g h : GraphI) (hg : g.Lawful) (hh : h.Lawful) (og : g.InEdgeOrder) (oh : h.InEdgeOrder) (he : g.edges.Nodup)
  (part : GraphI.PartOn S g h) (p p' : Pairing) (hp : p.Matches g) (hp' : p'.Matches h) (hpp : Pairing.PartOn S p p') (pf : Platform)
  (room : Headroom pf g)
include hg hh og oh he part hp hp' hpp room

/-- **C88.**  If `maximum_matching` returns on a graph, it returns on every part of it that no edge leads out of; and the pairs it
makes there are the pairs it makes in that part of the whole graph, whatever the rest of the graph is. -/
theorem C88_part_returns (q : Pairing) (h1 : MatchingReturns pf g p q) (ords : List Bool → Nat → HashOrder) (ho : ∀ l i, (ords l i).Valid) :
    ∃ N, ∀ fuel, N ≤ fuel → ∃ q', maximumMatching pf fuel ords h p' = .ok q' ∧ Pairing.PartOn S q q' := by
  have l := local_of hg hh og oh he room part hp hp' hpp
  obtain ⟨ords1, n, ho1, e⟩ := h1
  obtain ⟨j, hl, hd⟩ := leads_of_ok hg he room n hp ho1 e
  obtain ⟨i, q', hi, l'⟩ : ∃ i q', Leads pf h i p' q' ∧ Local pf S g h q q' := by
    clear hd e hpp hp'
    induction hl generalizing p' with
    | none r => exact ⟨0, p', .none _, l⟩
    | round k r r1 r' path hf ha _ ih =>
      have hr1 := (Leads.round _ _ _ _ _ hf ha (.none _)).matches_ hg he hp
      rcases l.finds hf with ⟨hS, hf'⟩ | hS
      · obtain ⟨s, es, ls⟩ := l.inside hf ha hf' hS
        obtain ⟨i, q', h1, h2⟩ := ih s hr1 ls
        exact ⟨i + 1, q', .round _ _ _ _ _ hf' es h1, h2⟩
      · exact ih p' hr1 (l.outside hf ha hS)
  exact ⟨_, fun fuel hf => ⟨q', ok_of_leads hh l.nodup' l.room' hp' ho hi (l'.done hd) hf, l'.partOn⟩⟩

end

section
variable (c : Nat → Nat) (g : GraphI) (hs : Nat → GraphI) (hg : g.Lawful) (hh : ∀ v ∈ g.nodes, (hs (c v)).Lawful) (og : g.InEdgeOrder)
  (oh : ∀ v ∈ g.nodes, (hs (c v)).InEdgeOrder) (he : g.edges.Nodup) (parts : ∀ v ∈ g.nodes, GraphI.PartOn (fun x => c x == c v) g (hs (c v)))
  (p : Pairing) (ps : Nat → Pairing) (hp : p.Matches g) (hps : ∀ v ∈ g.nodes, (ps (c v)).Matches (hs (c v)))
  (hpp : ∀ v ∈ g.nodes, Pairing.PartOn (fun x => c x == c v) p (ps (c v))) (pf : Platform) (room : Headroom pf g)
include hg hh og oh he parts hp hps hpp room

theorem localAll_of : LocalAll pf c g hs p ps := fun v hv =>
  local_of hg (hh v hv) og (oh v hv) he room (parts v hv) hp (hps v hv) (hpp v hv)

/-- **C88, parts that panic.**  Let the nodes be labelled by `c` so that no edge joins two labels.  If `maximum_matching` panics on the
graph, it panics on one of the parts. -/
theorem C88_panics_in_a_part (ords : List Bool → Nat → HashOrder) (ho : ∀ l i, (ords l i).Valid) (fuel : Nat) (m : String)
    (h : maximumMatching pf fuel ords g p = .panic m) :
    ∃ v ∈ g.nodes, ∃ N, ∀ n, N ≤ n → ∃ m', maximumMatching pf n ords (hs (c v)) (ps (c v)) = .panic m' := by
  have l := localAll_of c g hs hg hh og oh he parts p ps hp hps hpp pf room
  obtain ⟨v, hv, h1⟩ := l.stuck hg he hp (stuck_of_panic hg he room fuel hp ho h)
  exact ⟨v, hv, panic_of_stuck (hh v hv) (l v hv).nodup' (l v hv).room' (hps v hv) ho h1⟩

/-- **C88, parts that never end.**  If it never ends on the graph, it never ends on one of the parts. -/
theorem C88_never_ends_in_a_part (ords : List Bool → Nat → HashOrder) (ho : ∀ l i, (ords l i).Valid)
    (h : ∀ fuel, maximumMatching pf fuel ords g p = .timeout) :
    ∃ v ∈ g.nodes, ∀ n, maximumMatching pf n ords (hs (c v)) (ps (c v)) = .timeout := by
  have l := localAll_of c g hs hg hh og oh he parts p ps hp hps hpp pf room
  obtain ⟨v, hv, h1⟩ := l.forever hg he hp (fun j => leads_of_timeout (pf := pf) hg he j hp ho le_rfl (h _))
  exact ⟨v, hv, fun n => timeout_of_leads (hh v hv) (l v hv).nodup' (l v hv).room' (hps v hv) h1 ho n⟩

/-- **C88, exactly.**  It returns on the graph exactly if it returns on every one of the parts. -/
theorem C88_returns_iff : (∃ q, MatchingReturns pf g p q) ↔ ∀ v ∈ g.nodes, ∃ q, MatchingReturns pf (hs (c v)) (ps (c v)) q := by
  have l := localAll_of c g hs hg hh og oh he parts p ps hp hps hpp pf room
  have hid : ∀ (_ : List Bool) (_ : Nat), HashOrder.Valid _root_.id := fun _ _ => HashOrder.id_valid
  constructor
  · rintro ⟨q, h⟩ v hv
    obtain ⟨N, hN⟩ := C88_part_returns _ g (hs (c v)) hg (hh v hv) og (oh v hv) he (parts v hv) p (ps (c v)) hp (hps v hv) (hpp v hv) pf room
      q h (fun _ _ => _root_.id) hid
    obtain ⟨q', e, -⟩ := hN N le_rfl
    exact ⟨q', _, N, hid, e⟩
  · intro h
    have ended : ∀ v ∈ g.nodes, ∃ j q, Leads pf (hs (c v)) j (ps (c v)) q ∧ Done pf (hs (c v)) q := by
      intro v hv
      obtain ⟨q, ords, n, ho, e⟩ := h v hv
      obtain ⟨j, h1, h2⟩ := leads_of_ok (hh v hv) (l v hv).nodup' (l v hv).room' n (hps v hv) ho e
      exact ⟨j, q, h1, h2⟩
    by_cases hinf : ∀ j, ∃ r, Leads pf g j p r
    · obtain ⟨v, hv, h1⟩ := l.forever hg he hp hinf
      obtain ⟨j, q, h2, h3⟩ := ended v hv
      obtain ⟨r, hr⟩ := h1 (j + 1)
      have := h2.le_done (hh v hv) (l v hv).nodup' (hps v hv) h3 hr
      omega
    · push Not at hinf
      obtain ⟨j, hj⟩ := hinf
      rcases run_cases hg he room hp j with ⟨r, hr⟩ | ⟨i, q, h1, h2⟩ | h1
      · exact absurd hr (hj r)
      · exact ⟨q, _, _, hid, ok_of_leads hg he room hp hid h1 h2 le_rfl⟩
      · obtain ⟨v, hv, h2⟩ := l.stuck hg he hp h1
        obtain ⟨j, q, h3, h4⟩ := ended v hv
        exact (h3.not_stuck (hh v hv) (l v hv).nodup' (hps v hv) h4 h2).elim

/-- **C88, panics, exactly.**  If it ends on every part, it panics on the graph exactly if it panics on a part. -/
theorem C88_panics_iff (ords : List Bool → Nat → HashOrder) (ho : ∀ l i, (ords l i).Valid)
    (hend : ∀ v ∈ g.nodes, ∃ fuel, maximumMatching pf fuel ords (hs (c v)) (ps (c v)) ≠ .timeout) :
    (∃ fuel m, maximumMatching pf fuel ords g p = .panic m) ↔
      ∃ v ∈ g.nodes, ∃ fuel m, maximumMatching pf fuel ords (hs (c v)) (ps (c v)) = .panic m := by
  have l := localAll_of c g hs hg hh og oh he parts p ps hp hps hpp pf room
  constructor
  · rintro ⟨fuel, m, e⟩
    obtain ⟨v, hv, N, hN⟩ := C88_panics_in_a_part c g hs hg hh og oh he parts p ps hp hps hpp pf room ords ho fuel m e
    exact ⟨v, hv, N, hN N le_rfl⟩
  · rintro ⟨v, hv, fuel, m, e⟩
    by_contra hno
    push Not at hno
    by_cases hinf : ∀ n, maximumMatching pf n ords g p = .timeout
    · obtain ⟨w, hw, h1⟩ := C88_never_ends_in_a_part c g hs hg hh og oh he parts p ps hp hps hpp pf room ords ho hinf
      obtain ⟨n, hn⟩ := hend w hw
      exact hn (h1 n)
    · push Not at hinf
      obtain ⟨n, hn⟩ := hinf
      rcases maximumMatching_spec (pf := pf) hg he n hp ho with ⟨q, e1, -⟩ | e1 | ⟨m', e1, -⟩ | e1
      · obtain ⟨N, hN⟩ := C88_part_returns _ g (hs (c v)) hg (hh v hv) og (oh v hv) he (parts v hv) p (ps (c v)) hp (hps v hv) (hpp v hv)
          pf room q ⟨ords, n, ho, e1⟩ ords ho
        obtain ⟨q', e2, -⟩ := hN N le_rfl
        obtain ⟨j, h3, h4⟩ := leads_of_ok (hh v hv) (l v hv).nodup' (l v hv).room' N (hps v hv) ho e2
        exact h3.not_stuck (hh v hv) (l v hv).nodup' (hps v hv) h4
          (stuck_of_panic (hh v hv) (l v hv).nodup' (l v hv).room' fuel (hps v hv) ho e)
      · exact hno _ _ e1
      · exact hno _ _ e1
      · exact hn e1

/-- **C88, never ending, exactly.**  If it panics on no part, it never ends on the graph exactly if it never ends on a part. -/
theorem C88_never_ends_iff (ords : List Bool → Nat → HashOrder) (ho : ∀ l i, (ords l i).Valid)
    (hno : ∀ v ∈ g.nodes, ∀ fuel m, maximumMatching pf fuel ords (hs (c v)) (ps (c v)) ≠ .panic m) :
    (∀ fuel, maximumMatching pf fuel ords g p = .timeout) ↔
      ∃ v ∈ g.nodes, ∀ fuel, maximumMatching pf fuel ords (hs (c v)) (ps (c v)) = .timeout := by
  constructor
  · exact C88_never_ends_in_a_part c g hs hg hh og oh he parts p ps hp hps hpp pf room ords ho
  · rintro ⟨v, hv, h⟩ fuel
    have panics : ∀ m, maximumMatching pf fuel ords g p ≠ .panic m := by
      intro m e
      obtain ⟨w, hw, N, hN⟩ := C88_panics_in_a_part c g hs hg hh og oh he parts p ps hp hps hpp pf room ords ho fuel m e
      obtain ⟨m', e'⟩ := hN N le_rfl
      exact hno w hw N m' e'
    rcases maximumMatching_spec (pf := pf) hg he fuel hp ho with ⟨q, e1, -⟩ | e1 | ⟨m', e1, -⟩ | e1
    · obtain ⟨N, hN⟩ := C88_part_returns _ g (hs (c v)) hg (hh v hv) og (oh v hv) he (parts v hv) p (ps (c v)) hp (hps v hv) (hpp v hv)
        pf room q ⟨ords, fuel, ho, e1⟩ ords ho
      obtain ⟨q', e2, -⟩ := hN N le_rfl
      rw [h N] at e2; cases e2
    · exact absurd e1 (panics _)
    · exact absurd e1 (panics _)
    · exact e1

end

/-! #### Graphs made with calls -/

theorem log_part {S : Nat → Bool} (ops : List GraphOp) (hc : ∀ e ∈ (ops.foldl GraphOp.log ([], [])).2, S e.1 = S e.2) :
    (ops.filter (fun o => o.ids.all S)).foldl GraphOp.log ([], []) =
      ((ops.foldl GraphOp.log ([], [])).1.filter S, (ops.foldl GraphOp.log ([], [])).2.filter (fun e => S e.1)) := by
  induction ops using List.reverseRecOn with
  | nil => rfl
  | append_singleton ops o ih =>
    rw [List.foldl_append, List.foldl_cons, List.foldl_nil] at hc ⊢
    have hmono : ∀ e ∈ (ops.foldl GraphOp.log ([], [])).2, e ∈ (GraphOp.log (ops.foldl GraphOp.log ([], [])) o).2 := by
      intro e he
      cases o <;> simp only [GraphOp.log] <;> split <;> simp [he]
    have ih := ih (fun e he => hc e (hmono e he))
    rw [List.filter_append, List.foldl_append, ih]
    generalize ops.foldl GraphOp.log ([], []) = s at hc hmono ⊢
    obtain ⟨ns, es⟩ := s
    cases o with
    | node v =>
      by_cases hS : S v = true
      · by_cases hv : v ∈ ns <;> simp [GraphOp.ids, GraphOp.log, hS, hv]
      · by_cases hv : v ∈ ns <;> simp [GraphOp.ids, GraphOp.log, hS, hv]
    | edge a b =>
      by_cases hn : a ∈ ns ∧ b ∈ ns ∧ ∀ e ∈ es, ¬ SameEdge e (a, b)
      · have hab : S a = S b := hc (a, b) (by simp only [GraphOp.log]; rw [if_pos hn]; simp)
        by_cases hS : S a = true
        · have hS' := hab ▸ hS
          have hn' : a ∈ ns.filter S ∧ b ∈ ns.filter S ∧ ∀ e ∈ es.filter (fun e => S e.1), ¬ SameEdge e (a, b) :=
            ⟨List.mem_filter.2 ⟨hn.1, hS⟩, List.mem_filter.2 ⟨hn.2.1, hS'⟩, fun e he => hn.2.2 e (List.mem_filter.1 he).1⟩
          simp only [GraphOp.ids, List.filter_cons, List.filter_nil, List.all_cons, List.all_nil, hS, hS', Bool.and_true, if_true,
            List.foldl_cons, List.foldl_nil, GraphOp.log, if_pos hn, if_pos hn', List.filter_append]
        · simp only [GraphOp.log, if_pos hn, List.filter_append]
          simp [GraphOp.ids, hS]
      · by_cases hS : S a = true ∧ S b = true
        · have hn' : ¬ (a ∈ ns.filter S ∧ b ∈ ns.filter S ∧ ∀ e ∈ es.filter (fun e => S e.1), ¬ SameEdge e (a, b)) := by
            rintro ⟨h1, h2, h3⟩
            refine hn ⟨(List.mem_filter.1 h1).1, (List.mem_filter.1 h2).1, fun e he hse => h3 e (List.mem_filter.2 ⟨he, ?_⟩) hse⟩
            rcases hse with ⟨x, y⟩ | ⟨x, y⟩
            · simp only [x]; exact hS.1
            · simp only [x]; exact hS.2
          simp only [GraphOp.ids, List.filter_cons, List.filter_nil, List.all_cons, List.all_nil, hS.1, hS.2, Bool.and_true, if_true,
            List.foldl_cons, List.foldl_nil, GraphOp.log, if_neg hn, if_neg hn']
        · simp only [GraphOp.log, if_neg hn]
          have : ([S a, S b].all _root_.id) = false := by
            cases h1 : S a <;> cases h2 : S b <;> simp_all
          have : (GraphOp.edge a b).ids.all S = false := by simpa [GraphOp.ids] using this
          simp [this]

/-- **C88, graphs made with calls.**  A graph made by calls of `add_node` and `add_edge` (failed ones included) meets the hypotheses on
`g`; and if no edge of it leads out of `S`, then the same calls without those that name an id outside `S` make its part on `S`, which
meets the hypotheses on `h`. -/
theorem C88_made_with_calls (S : Nat → Bool) (ops : List GraphOp)
    (hc : ∀ e ∈ (ops.foldl DefaultGraph.perform .new).toI.edges, S e.1 = S e.2) :
    let g := (ops.foldl DefaultGraph.perform .new).toI
    let h := ((ops.filter (fun o => o.ids.all S)).foldl DefaultGraph.perform .new).toI
    g.Lawful ∧ h.Lawful ∧ g.InEdgeOrder ∧ h.InEdgeOrder ∧ g.edges.Nodup ∧ GraphI.PartOn S g h := by
  intro g h
  have lg := logged_run ops
  have lh := logged_run (ops.filter (fun o => o.ids.all S))
  have rg := (DefaultGraph.noAdjLoop_run ops).reachable
  have rh := (DefaultGraph.noAdjLoop_run (ops.filter (fun o => o.ids.all S))).reachable
  have hc' : ∀ e ∈ (ops.foldl GraphOp.log ([], [])).2, S e.1 = S e.2 := fun e he => hc e (by
    show e ∈ (ops.foldl DefaultGraph.perform .new).edges
    rw [lg.edges]; exact he)
  have key := log_part ops hc'
  refine ⟨reachable_lawful _ rg, reachable_lawful _ rh, lg.good.2.2.1, lh.good.2.2.1, rg.loopExact.nodup, ⟨?_, ?_, hc⟩⟩
  · show (List.foldl DefaultGraph.perform .new _).nodes = ((ops.foldl DefaultGraph.perform .new).nodes).filter S
    rw [lh.nodes, lg.nodes, key]
  · show (List.foldl DefaultGraph.perform .new _).edges = ((ops.foldl DefaultGraph.perform .new).edges).filter _
    rw [lh.edges, lg.edges, key]

/-! #### Examples -/

/-- The calls that make the graph of `C41_panics`, and those that make a triangle with a tail, in turns. -/
def panicAndTri : List GraphOp :=
  [.node 10, .node 5, .node 1, .node 11, .node 2, .edge 5 1, .edge 10 11, .edge 2 1, .node 12, .edge 10 12, .node 0, .edge 1 0, .node 3, .edge 3 2,
    .edge 11 12, .edge 3 5, .edge 2 0, .node 13, .edge 12 13, .edge 0 5, .node 4, .edge 4 2]

/-- The part with the triangle. -/
def triPart : List GraphOp := panicAndTri.filter (fun o => o.ids.all (fun x => decide (10 ≤ x)))

/-- The part with the other graph. -/
def panicPart : List GraphOp := panicAndTri.filter (fun o => o.ids.all (fun x => decide (x < 10)))

/-- The hypotheses hold of the graph and either part; the search panics on the whole and on one part and returns on the other. -/
example (b : Bool) :
    (∀ e ∈ (panicAndTri.foldl DefaultGraph.perform .new).toI.edges, decide (10 ≤ e.1) = decide (10 ≤ e.2)) ∧
    (∀ e ∈ (panicAndTri.foldl DefaultGraph.perform .new).toI.edges, decide (e.1 < 10) = decide (e.2 < 10)) ∧
    (pairingOf [(11, 12)]).Matches (panicAndTri.foldl DefaultGraph.perform .new).toI ∧
    (pairingOf [(11, 12)]).Matches (triPart.foldl DefaultGraph.perform .new).toI ∧
    Headroom (pf64 b) (panicAndTri.foldl DefaultGraph.perform .new).toI ∧
    maximumMatching (pf64 b) 30 (fun _ _ => _root_.id) (panicAndTri.foldl DefaultGraph.perform .new).toI (pairingOf [(11, 12)]) =
      .panic "even path augmentation" ∧
    maximumMatching (pf64 b) 30 (fun _ _ => _root_.id) (panicPart.foldl DefaultGraph.perform .new).toI .new = .panic "even path augmentation" ∧
    ∃ q, maximumMatching (pf64 b) 30 (fun _ _ => _root_.id) (triPart.foldl DefaultGraph.perform .new).toI (pairingOf [(11, 12)]) = .ok q ∧
      q.mate 10 = .ok 11 ∧ q.mate 12 = .ok 13 := by
  have h1 : ∀ b, maximumMatching (pf64 b) 30 (fun _ _ => _root_.id) (panicAndTri.foldl DefaultGraph.perform .new).toI (pairingOf [(11, 12)]) =
      .panic "even path augmentation" := by decide +kernel
  have h2 : ∀ b, maximumMatching (pf64 b) 30 (fun _ _ => _root_.id) (panicPart.foldl DefaultGraph.perform .new).toI .new =
      .panic "even path augmentation" := by decide +kernel
  have h3 : ∀ b, (maximumMatching (pf64 b) 30 (fun _ _ => _root_.id) (triPart.foldl DefaultGraph.perform .new).toI (pairingOf [(11, 12)]) >>=
      fun q => (if q.mate 10 = .ok 11 ∧ q.mate 12 = .ok 13 then .ok () else .timeout : Out Unit)) = .ok () := by decide +kernel
  refine ⟨by decide +kernel, by decide +kernel, matches_of_test (by decide +kernel), matches_of_test (by decide +kernel),
    headroom_of (by cases b <;> decide +kernel), h1 b, h2 b, ?_⟩
  have h := h3 b
  rw [Out.bind_eq_ok] at h
  obtain ⟨q, e, h⟩ := h
  split at h
  · exact ⟨q, e, by assumption⟩
  · cases h

/-- `C88_part_returns`, on the graph of a clique and a triangle with a tail: the triangle alone is matched as it is beside the clique. -/
example (b : Bool) : ∃ q q', maximumMatching (pf64 b) 30 (fun _ _ => _root_.id)
      ([GraphOp.node 0, .node 4, .node 1, .node 5, .node 2, .edge 0 1, .edge 4 5, .edge 0 2, .node 6, .edge 5 6, .edge 1 2, .edge 6 4, .node 7,
        .edge 6 7].foldl DefaultGraph.perform .new).toI .new = .ok q ∧
    maximumMatching (pf64 b) 30 (fun _ _ => _root_.id)
      ([GraphOp.node 4, .node 5, .edge 4 5, .node 6, .edge 5 6, .edge 6 4, .node 7, .edge 6 7].foldl DefaultGraph.perform .new).toI .new = .ok q' ∧
    q.mate 4 = .ok 5 ∧ q'.mate 4 = .ok 5 ∧ q.mate 6 = .ok 7 ∧ q'.mate 6 = .ok 7 ∧ q.mate 0 = .ok 1 ∧ q'.order = 4 := by
  have h3 : ∀ b, ((maximumMatching (pf64 b) 30 (fun _ _ => _root_.id)
      ([GraphOp.node 0, .node 4, .node 1, .node 5, .node 2, .edge 0 1, .edge 4 5, .edge 0 2, .node 6, .edge 5 6, .edge 1 2, .edge 6 4, .node 7,
        .edge 6 7].foldl DefaultGraph.perform .new).toI .new) >>= fun q => (maximumMatching (pf64 b) 30 (fun _ _ => _root_.id)
      ([GraphOp.node 4, .node 5, .edge 4 5, .node 6, .edge 5 6, .edge 6 4, .node 7, .edge 6 7].foldl DefaultGraph.perform .new).toI .new) >>=
      fun q' => (if q.mate 4 = .ok 5 ∧ q'.mate 4 = .ok 5 ∧ q.mate 6 = .ok 7 ∧ q'.mate 6 = .ok 7 ∧ q.mate 0 = .ok 1 ∧ q'.order = 4
        then .ok () else .timeout : Out Unit)) = .ok () := by decide +kernel
  have h := h3 b
  rw [Out.bind_eq_ok] at h
  obtain ⟨q, e, h⟩ := h
  rw [Out.bind_eq_ok] at h
  obtain ⟨q', e', h⟩ := h
  split at h
  · exact ⟨q, q', e, e', by assumption⟩
  · cases h

end Gamma
