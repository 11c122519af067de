import Verif.Proofs.GraphMore
import Verif.Proofs.Lawful
import Verif.Proofs.Pairing
import Verif.Proofs.Greedy
/-
Contraction of a blossom: `contract_graph` and `contract_pairing` described by one map on nodes.
-/
namespace Gamma

/-- The contraction map: nodes of the blossom go to its id. -/
def kap (b : Blossom) (x : Nat) : Nat := if x ∈ b.path then b.id else x

theorem kap_in {b : Blossom} {x : Nat} (h : x ∈ b.path) : kap b x = b.id := by simp [kap, h]
theorem kap_out {b : Blossom} {x : Nat} (h : x ∉ b.path) : kap b x = x := by simp [kap, h]

theorem foldlM_inv_ok {α β : Type} {f : β → α → Out β} (I : List α → β → Prop) (L : List α)
    (hf : ∀ pre a post b, L = pre ++ a :: post → I pre b → ∃ b', f b a = .ok b' ∧ I (pre ++ [a]) b')
    {b : β} (hb : I [] b) : ∃ b', L.foldlM f b = .ok b' ∧ I L b' := by
  have : ∀ (l pre : List α) (b : β), L = pre ++ l → I pre b → ∃ b', l.foldlM f b = .ok b' ∧ I L b' := by
    intro l
    induction l with
    | nil => intro pre b hL hI; simp at hL; subst hL; exact ⟨b, rfl, hI⟩
    | cons a l ih =>
      intro pre b hL hI
      obtain ⟨b1, e1, h1⟩ := hf pre a l b hL hI
      obtain ⟨b2, e2, h2⟩ := ih (pre ++ [a]) b1 (by simp [hL]) h1
      exact ⟨b2, by rw [List.foldlM_cons, e1]; exact e2, h2⟩
  exact this L [] b rfl hb

namespace Blossom
open DefaultGraph

/-- The relation the contracted graph has after the edges `es`. -/
def CAdj (b : Blossom) (es : List (Nat × Nat)) (x y : Nat) : Prop :=
  ∃ e ∈ es, ¬ (e.1 ∈ b.path ∧ e.2 ∈ b.path) ∧
    ((kap b e.1 = x ∧ kap b e.2 = y) ∨ (kap b e.1 = y ∧ kap b e.2 = x))

theorem CAdj_snoc {b : Blossom} {es : List (Nat × Nat)} {e : Nat × Nat} {x y : Nat} :
    b.CAdj (es ++ [e]) x y ↔ b.CAdj es x y ∨ (¬ (e.1 ∈ b.path ∧ e.2 ∈ b.path) ∧
      ((kap b e.1 = x ∧ kap b e.2 = y) ∨ (kap b e.1 = y ∧ kap b e.2 = x))) := by
  unfold CAdj
  constructor
  · rintro ⟨f, hf, h⟩
    rcases List.mem_append.1 hf with h1 | h1
    · exact .inl ⟨f, h1, h⟩
    · simp at h1; subst h1; exact .inr h
  · rintro (⟨f, hf, h⟩ | h)
    · exact ⟨f, List.mem_append_left _ hf, h⟩
    · exact ⟨e, by simp, h⟩

theorem Reachable_addNodeQ {r r' : DefaultGraph} {id : Nat} (h : r.Reachable) (e : r.addNodeQ id = .ok r') :
    r'.Reachable := by
  unfold DefaultGraph.addNodeQ at e
  rw [Out.bind_eq_ok] at e
  obtain ⟨_, -, e⟩ := e
  cases e
  exact .addNode _ _ h

theorem Reachable_addEdgeQ {r r' : DefaultGraph} {s t : Nat} (h : r.Reachable) (e : r.addEdgeQ s t = .ok r') :
    r'.Reachable := by
  unfold DefaultGraph.addEdgeQ at e
  rw [Out.bind_eq_ok] at e
  obtain ⟨_, -, e⟩ := e
  cases e
  exact .addEdge _ _ _ h

variable {g : GraphI} {b : Blossom}

/-- What `contract_graph` returns. -/
structure Contracted (g : GraphI) (b : Blossom) (r : DefaultGraph) : Prop where
  reach : r.Reachable
  nodes : r.nodes = b.id :: g.nodes.filter (fun x => !b.path.contains x)
  adj : ∀ x y, r.toI.Adj x y ↔ b.CAdj g.edges x y

theorem contractNodes_ok (hg : g.Lawful) (hid : ∀ v ∈ g.nodes, v ∉ b.path → v ≠ b.id)
    {r0 : DefaultGraph} (h0 : DefaultGraph.new.addNodeQ b.id = .ok r0) :
    ∃ r, g.nodes.foldlM b.contractNode r0 = .ok r ∧ r.Reachable ∧
      r.nodes = b.id :: g.nodes.filter (fun x => !b.path.contains x) ∧ ∀ x y, ¬ r.toI.Adj x y := by
  have hr0 : r0.Reachable := Reachable_addNodeQ .new h0
  obtain ⟨r0', e0, -, a0⟩ := addNodeQ_new wf_new (id := b.id) (by simp [DefaultGraph.new])
  rw [h0] at e0; cases e0
  refine foldlM_inv_ok (fun pre (r : DefaultGraph) => r.Reachable ∧
      r.nodes = b.id :: pre.filter (fun x => !b.path.contains x) ∧ ∀ x y, ¬ r.toI.Adj x y) g.nodes ?_ ?_
  · rintro pre a post r hL ⟨hr, hn, ha⟩
    unfold contractNode
    by_cases hc : a ∈ b.path
    · simp [hc, hr, hn, ha]
    · have hnm : a ∉ r.nodes := by
        rw [hn]
        have hnd := hg.nodes_nodup
        rw [hL, List.nodup_append] at hnd
        simp only [List.mem_cons, List.mem_filter, not_or, not_and]
        refine ⟨hid a (by rw [hL]; simp) hc, fun h _ => hnd.2.2 a h a (by simp) rfl⟩
      obtain ⟨r', e', -, a'⟩ := addNodeQ_new hr.wf hnm
      refine ⟨r', by simpa [hc] using e', Reachable_addNodeQ hr e', ?_, ?_⟩
      · rw [a'.nodes, hn]; simp [List.filter_append, hc]
      · intro x y; rw [a'.adj hr.wf hnm]; exact ha x y
  · refine ⟨hr0, ?_, ?_⟩
    · rw [a0.nodes]; simp [DefaultGraph.new]
    · intro x y
      rw [a0.adj wf_new (by simp [DefaultGraph.new])]
      rintro ⟨l, hl, -⟩; simp [toI, DefaultGraph.neighbors, indexFor, DefaultGraph.new] at hl

theorem contractGraph_ok (hg : g.Lawful) (he : g.edges.Nodup) (hid : ∀ v ∈ g.nodes, v ∉ b.path → v ≠ b.id) :
    ∃ r, b.contractGraph g = .ok r ∧ Contracted g b r := by
  obtain ⟨r0, e0, -, -⟩ := addNodeQ_new wf_new (id := b.id) (by simp [DefaultGraph.new])
  obtain ⟨r1, e1, hr1, hn1, ha1⟩ := contractNodes_ok hg hid e0
  unfold contractGraph
  rw [e0, Out.ok_bind, e1, Out.ok_bind]
  suffices h : ∃ r, g.edges.foldlM b.contractEdge r1 = .ok r ∧ r.Reachable ∧
      r.nodes = b.id :: g.nodes.filter (fun x => !b.path.contains x) ∧
      ∀ x y, r.toI.Adj x y ↔ b.CAdj g.edges x y by
    obtain ⟨r, e, hr, hn, ha⟩ := h; exact ⟨r, e, hr, hn, ha⟩
  refine foldlM_inv_ok (f := b.contractEdge) (fun pre r => r.Reachable ∧
      r.nodes = b.id :: g.nodes.filter (fun x => !b.path.contains x) ∧
      ∀ x y, r.toI.Adj x y ↔ b.CAdj pre x y) g.edges (b := r1) ?_ ⟨hr1, hn1, fun x y => by
        simp [ha1 x y, CAdj]⟩
  rintro pre ⟨a, c⟩ post r hL ⟨hr, hn, ha⟩
  have hm : (a, c) ∈ g.edges := by rw [hL]; simp
  have hac : g.Adj a c := hg.edges_adj a c hm
  have hcn := hg.adj_mem _ _ hac
  have han := hg.adj_src hac
  have hin : ∀ x, x ∈ g.nodes → x ∉ b.path → x ∈ r.nodes := by
    intro x hx hb; rw [hn]; simp [hx, hb]
  have hidn : b.id ∈ r.nodes := by rw [hn]; simp
  have hl := hr.lawful
  unfold contractEdge
  by_cases h1 : a ∈ b.path
  · by_cases h2 : c ∈ b.path
    · refine ⟨r, by simp [h1, h2], hr, hn, fun x y => ?_⟩
      rw [ha, CAdj_snoc]; simp [h1, h2]
    · obtain ⟨v, ev, hv⟩ := hl.hasEdge_ok b.id c hidn (hin c hcn h2)
      have ev' : r.hasEdge b.id c = .ok v := ev
      cases v with
      | true =>
        refine ⟨r, by simp [h1, h2, ev'], hr, hn, fun x y => ?_⟩
        rw [ha, CAdj_snoc]
        simp only [kap_in h1, kap_out h2, h1, h2, and_false, not_false_eq_true, true_and]
        have h3 := (ha _ _).1 (hv.1 rfl)
        have h4 := (ha _ _).1 (hl.adj_symm _ _ (hv.1 rfl))
        constructor
        · exact .inl
        · rintro (h | ⟨rfl, rfl⟩ | ⟨rfl, rfl⟩)
          · exact h
          · exact h3
          · exact h4
      | false =>
        obtain ⟨r', e', -, a'⟩ := addEdgeQ_new hr.wf hidn (hin c hcn h2) (fun h => by simpa using hv.2 h)
        refine ⟨r', by simp [h1, h2, ev', e'], Reachable_addEdgeQ hr e', by rw [a'.nodes, hn], fun x y => ?_⟩
        rw [a'.adj hr.wf hidn (hin c hcn h2), ha, CAdj_snoc]
        simp only [kap_in h1, kap_out h2, h1, h2, and_false, not_false_eq_true, true_and]
        grind
  · by_cases h2 : c ∈ b.path
    · obtain ⟨v, ev, hv⟩ := hl.hasEdge_ok a b.id (hin a han h1) hidn
      have ev' : r.hasEdge a b.id = .ok v := ev
      cases v with
      | true =>
        refine ⟨r, by simp [h1, h2, ev'], hr, hn, fun x y => ?_⟩
        rw [ha, CAdj_snoc]
        simp only [kap_in h2, kap_out h1, h1, h2, and_true, not_false_eq_true, true_and]
        have h3 := (ha _ _).1 (hv.1 rfl)
        have h4 := (ha _ _).1 (hl.adj_symm _ _ (hv.1 rfl))
        constructor
        · exact .inl
        · rintro (h | ⟨rfl, rfl⟩ | ⟨rfl, rfl⟩)
          · exact h
          · exact h3
          · exact h4
      | false =>
        obtain ⟨r', e', -, a'⟩ := addEdgeQ_new hr.wf (hin a han h1) hidn (fun h => by simpa using hv.2 h)
        refine ⟨r', by simp [h1, h2, ev', e'], Reachable_addEdgeQ hr e', by rw [a'.nodes, hn], fun x y => ?_⟩
        rw [a'.adj hr.wf (hin a han h1) hidn, ha, CAdj_snoc]
        simp only [kap_in h2, kap_out h1, h1, h2, and_true, not_false_eq_true, true_and]
        grind
    · have hna : ¬ r.toI.Adj a c := by
        rw [ha]
        rintro ⟨⟨a', c'⟩, hm', hnb, hor⟩
        have key : ∀ z w, (z, w) ∈ pre → kap b z = a → kap b w = c → z = a ∧ w = c := by
          intro z w hzw hz hw
          constructor
          · by_cases hzb : z ∈ b.path
            · rw [kap_in hzb] at hz; exact absurd hz.symm (hid a han h1)
            · rw [kap_out hzb] at hz; exact hz
          · by_cases hzb : w ∈ b.path
            · rw [kap_in hzb] at hw; exact absurd hw.symm (hid c hcn h2)
            · rw [kap_out hzb] at hw; exact hw
        have key2 : ∀ z w, (z, w) ∈ pre → kap b z = c → kap b w = a → z = c ∧ w = a := by
          intro z w hzw hz hw
          constructor
          · by_cases hzb : z ∈ b.path
            · rw [kap_in hzb] at hz; exact absurd hz.symm (hid c hcn h2)
            · rw [kap_out hzb] at hz; exact hz
          · by_cases hzb : w ∈ b.path
            · rw [kap_in hzb] at hw; exact absurd hw.symm (hid a han h1)
            · rw [kap_out hzb] at hw; exact hw
        have hnd : (a, c) ∉ pre := by
          rw [hL, List.nodup_append] at he
          intro h; exact he.2.2 _ h _ (by simp) rfl
        rcases hor with ⟨hz, hw⟩ | ⟨hz, hw⟩
        · obtain ⟨rfl, rfl⟩ := key _ _ hm' hz hw
          exact hnd hm'
        · obtain ⟨rfl, rfl⟩ := key2 _ _ hm' hz hw
          by_cases hne : a' = c'
          · subst hne; exact hnd hm'
          · have h1 := hg.edges_once a' c' hne
            have h2 : 0 < g.edges.count (a', c') := List.count_pos_iff.2 (by rw [hL]; simp [hm'])
            have h3 : 0 < g.edges.count (c', a') := List.count_pos_iff.2 hm
            omega
      obtain ⟨r', e', -, a'⟩ := addEdgeQ_new hr.wf (hin a han h1) (hin c hcn h2) hna
      refine ⟨r', by simp [h1, h2, e'], Reachable_addEdgeQ hr e', by rw [a'.nodes, hn], fun x y => ?_⟩
      rw [a'.adj hr.wf (hin a han h1) (hin c hcn h2), ha, CAdj_snoc]
      simp only [kap_out h2, kap_out h1, h1, h2, not_false_eq_true, true_and, and_self]
      grind

/-- Without a free id the contraction fails. -/
theorem contractGraph_err (hg : g.Lawful) {v : Nat} (hv : v ∈ g.nodes) (hb : v ∉ b.path) (hid : v = b.id) :
    (b.contractGraph g) = .err (.duplicateNode b.id) := by
  subst hid
  obtain ⟨pre, post, hL⟩ := List.append_of_mem hv
  have hnd := hg.nodes_nodup
  rw [hL, List.nodup_append] at hnd
  have hpre : b.id ∉ pre := fun h => hnd.2.2 _ h _ (by simp) rfl
  obtain ⟨r0, e0, -, a0⟩ := addNodeQ_new wf_new (id := b.id) (by simp [DefaultGraph.new])
  have hr0 : r0.Reachable := Reachable_addNodeQ .new e0
  obtain ⟨r1, e1, hr1, hn1⟩ := foldlM_inv_ok (f := b.contractNode) (fun pre r => r.Reachable ∧
      r.nodes = b.id :: pre.filter (fun x => !b.path.contains x)) pre (b := r0) (by
    rintro p' a post r hL' ⟨hr, hn⟩
    unfold contractNode
    by_cases hc : a ∈ b.path
    · simp [hc, hr, hn]
    · have hnm : a ∉ r.nodes := by
        rw [hn]
        have h1 := hnd.1
        rw [hL', List.nodup_append] at h1
        simp only [List.mem_cons, List.mem_filter, not_or, not_and]
        refine ⟨fun h => hpre (by rw [hL', ← h]; simp), fun h _ => h1.2.2 a h a (by simp) rfl⟩
      obtain ⟨r', e', -, a'⟩ := addNodeQ_new hr.wf hnm
      refine ⟨r', by simpa [hc] using e', Reachable_addNodeQ hr e', ?_⟩
      rw [a'.nodes, hn]; simp [List.filter_append, hc]) ⟨hr0, by rw [a0.nodes]; simp [DefaultGraph.new]⟩
  unfold contractGraph
  rw [e0, Out.ok_bind, hL, foldlM_append_out, e1, Out.ok_bind, List.foldlM_cons]
  have : b.contractNode r1 b.id = .err (.duplicateNode b.id) := by
    unfold contractNode
    simpa [hb] using addNodeQ_dup hr1.wf (by rw [hn1]; simp : b.id ∈ r1.nodes)
  rw [this]; rfl

end Blossom
end Gamma
