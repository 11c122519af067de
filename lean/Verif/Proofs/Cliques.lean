import Verif.Proofs.Slim
/-
Graphs whose components are cliques: the search starts at the first unpaired node of a clique, and a blossom stays at
the start of the path through all nested searches.  The other kinds of components are treated along with the cliques.
-/
namespace Gamma
open Pairing Blossom

variable {g g' : GraphI} {b : Blossom} {p p' : Pairing} {base : Nat} {pf : Platform}

/-! ### Where the search starts -/

/-- Unpaired, and adjacent to no unpaired node that comes before. -/
structure First (g : GraphI) (p : Pairing) (v : Nat) : Prop where
  unpaired : p.get v = none
  first : ∀ l1 l2, g.nodes.filter (fun x => !p.hasNode x) = l1 ++ v :: l2 → ∀ r ∈ l1, ¬ g.Adj r v

theorem Forest.addEdge_pre {f f1 : Forest} {a c : Nat} (h : f.addEdge a c = .ok f1) : f.nodes <+: f1.nodes := by
  unfold Forest.addEdge at h
  split at h
  · cases h
  split at h
  · injection h with h; subst h; exact List.prefix_append _ _
  · cases h

theorem apInnerT_pre {fuel0 v : Nat} (n : Nat) : ∀ {f : Forest} {m : Marker} {k : Nat}
    {fl : Flow ((Nat × List Nat × Forest) × Nat) (Forest × Marker × Nat)}, apInnerT fuel0 g p v n f m k = .ok fl →
    ∀ s, fl = .fall s → f.nodes <+: s.1.nodes := by
  induction n with
  | zero => intro f m k fl h; cases h
  | succ n ih =>
    intro f m k fl h s hs
    unfold apInnerT at h
    rw [Out.bind_eq_ok] at h
    obtain ⟨ow, -, h⟩ := h
    cases ow with
    | none => simp only at h; injection h with h; subst h; injection hs with hs; subst hs; exact List.prefix_refl _
    | some w =>
      simp only at h
      rw [Out.bind_eq_ok] at h
      obtain ⟨pw, -, h⟩ := h
      cases pw with
      | some pathW =>
        simp only at h
        split at h
        · injection h with h; subst h; cases hs
        · rw [Out.bind_eq_ok] at h
          obtain ⟨m1, -, h⟩ := h
          exact ih h s hs
      | none =>
        simp only at h
        rw [Out.bind_eq_ok] at h
        obtain ⟨f1, e1, h⟩ := h
        rw [Out.bind_eq_ok] at h
        obtain ⟨mw, -, h⟩ := h
        rw [Out.bind_eq_ok] at h
        obtain ⟨f2, e2, h⟩ := h
        rw [Out.bind_eq_ok] at h
        obtain ⟨m1, -, h⟩ := h
        exact ((Forest.addEdge_pre e1).trans (Forest.addEdge_pre e2)).trans (ih h s hs)

theorem FInv.root_single {f : Forest} {P : Nat → List Nat} (h : FInv g p f P) {r : Nat} (hr : p.get r = none)
    (hev : (P r).length % 2 = 1) : P r = [r] := by
  have h0 : P r ≠ [] := by intro e; rw [e] at hev; simp at hev
  rcases h.shape r h0 with ⟨e, -⟩ | ⟨q, hq, e, -⟩
  · exact e
  · have := h.mate_up r q e hq hev
    rw [hr] at this; cases this

theorem FInv.root_even {f : Forest} {P : Nat → List Nat} (h : FInv g p f P) {r : Nat} (hr : p.get r = none) (h0 : P r ≠ []) :
    (P r).length % 2 = 1 := by
  rcases Nat.mod_two_eq_zero_or_one (P r).length with h1 | h1
  · obtain ⟨y, hy, -⟩ := h.odd_child r h1 h0
    rw [hr] at hy; cases hy
  · exact h1

/-- The path of a node leads to an unpaired node along edges. -/
theorem FInv.chain_root {f : Forest} {P : Nat → List Nat} (h : FInv g p f P) :
    ∀ n x, (P x).length ≤ n → P x ≠ [] → (P x).IsChain g.Adj ∧ ∃ r ∈ P x, r ∈ g.nodes ∧ p.get r = none := by
  intro n
  induction n with
  | zero => intro x hx h0; exact absurd (List.length_eq_zero_iff.1 (by omega)) h0
  | succ n ih =>
    intro x hx h0
    rcases h.shape x h0 with ⟨e, hn⟩ | ⟨q, hq, e, ha⟩
    · rw [e]; exact ⟨by simp, x, by simp, h.sub x h0, hn⟩
    · obtain ⟨h1, r, h2, h3⟩ := ih q (by rw [e] at hx; simp at hx; omega) hq
      obtain ⟨l, hl⟩ := h.head hq
      rw [e]
      refine ⟨?_, r, List.mem_cons_of_mem _ h2, h3⟩
      rw [hl] at h1 ⊢
      exact List.isChain_cons_cons.2 ⟨ha, h1⟩

/-- The node the search picks next, if it is in a clique. -/
theorem pick_first (hg : g.Lawful) {f : Forest} {P : Nat → List Nat} {m : Marker} (hI : SInv g p f P m)
    (hR : g.nodes.filter (fun x => !p.hasNode x) <+: f.nodes) {v : Nat}
    (hv : (f.nodes.filter (fun x => (P x).length % 2 == 1)).find? (fun x => !m.hasNode x) = some v) (hC : g.CliqueAt v) : First g p v := by
  have hF := hI.forest
  have hvm := List.mem_of_find?_eq_some hv
  rw [List.mem_filter] at hvm
  have hve : (P v).length % 2 = 1 := by simpa using hvm.2
  have hv0 : P v ≠ [] := by intro e; rw [e] at hve; simp at hve
  have hRm : ∀ r, r ∈ g.nodes.filter (fun x => !p.hasNode x) ↔ r ∈ g.nodes ∧ p.get r = none := by
    intro r; rw [List.mem_filter, ← hasNode_false]; simp
  have hRe : ∀ r, r ∈ g.nodes → p.get r = none → (P r).length % 2 = 1 := fun r h1 h2 => hF.root_even h2 (hF.roots r h1 h2)
  -- a finished unpaired node has odd neighbors only
  have hdone : ∀ r, r ∈ g.nodes → p.get r = none → m.hasNode r = true → ¬ g.Adj r v := by
    intro r h1 h2 h3 ha
    rcases hI.edges r v (hI.done r h3 v ha) with h | h | h
    · rw [h2] at h; cases h
    · have := h.2; omega
    · have := h.2; have := hRe r h1 h2; omega
  -- a list in front without `v` has been finished
  have hfront : ∀ l1 l2, f.nodes = l1 ++ l2 → v ∉ l1 → ∀ r ∈ l1, r ∈ g.nodes → p.get r = none → m.hasNode r = true := by
    intro l1 l2 e hvl r hr h1 h2
    rw [e, List.filter_append, List.find?_append] at hv
    by_contra hm
    cases hf : (l1.filter (fun x => (P x).length % 2 == 1)).find? (fun x => !m.hasNode x) with
    | none =>
      rw [List.find?_eq_none] at hf
      have := hf r (List.mem_filter.2 ⟨hr, by simpa using hRe r h1 h2⟩)
      simp at this; exact hm this
    | some z =>
      rw [hf] at hv
      simp at hv
      subst hv
      exact hvl (List.mem_filter.1 (List.mem_of_find?_eq_some hf)).1
  obtain ⟨E, hE⟩ := hR
  have hun : p.get v = none := by
    by_contra hne
    obtain ⟨h1, r, h2, h3, h4⟩ := hF.chain_root _ v le_rfl hv0
    have hvR : v ∉ g.nodes.filter (fun x => !p.hasNode x) := fun h => hne ((hRm v).1 h).2
    have hm := hfront _ _ hE.symm hvR r ((hRm r).2 ⟨h3, h4⟩) h3 h4
    obtain ⟨l, hl⟩ := hF.head hv0
    rcases hC.pair (chain_pair hg h1 (show v ∈ P v by rw [hl]; simp) h2) (.refl _) with e | e
    · exact hne (e ▸ h4)
    · exact hdone r h3 h4 hm e
  refine ⟨hun, ?_⟩
  intro l1 l2 e r hr
  have hnd : (g.nodes.filter (fun x => !p.hasNode x)).Nodup := hg.nodes_nodup.filter _
  have hrR := (hRm r).1 (by rw [e]; simp [hr])
  refine hdone r hrR.1 hrR.2 (hfront l1 (v :: l2 ++ E) (by rw [← hE, e]; simp) ?_ r hr hrR.1 hrR.2)
  rw [e, List.nodup_append] at hnd
  exact fun h => hnd.2.2 v h v (by simp) rfl

theorem apOuterT_first {fuel0 : Nat} (hg : g.Lawful) (hp : p.Matches g) (n : Nat) :
    ∀ (f : Forest) (P : Nat → List Nat) (m : Marker) (k : Nat), SInv g p f P m →
    (∀ a b, m.hasEdge a b = true → m.hasEdge b a = true) → g.nodes.filter (fun x => !p.hasNode x) <+: f.nodes →
    ∀ {v : Nat} {pw : List Nat} {f1 : Forest} {k1 : Nat}, apOuterT fuel0 g p n f m k = .ok (some (v, pw, f1), k1) →
    ∃ P1 w, EvenEdge g p f1 P1 v w ∧ pw = P1 w ∧ (g.CliqueAt v → First g p v ∧ P1 v = [v]) := by
  induction n with
  | zero => intro f P m k _ _ _ v pw f1 k1 h; cases h
  | succ n ih =>
    intro f P m k hI hsym hR v pw f1 k1 h
    have hF := hI.forest
    unfold apOuterT at h
    rw [hF.someV m, Out.ok_bind] at h
    cases hv : (f.nodes.filter (fun x => (P x).length % 2 == 1)).find? (fun x => !m.hasNode x) with
    | none => rw [hv] at h; simp at h
    | some u =>
      rw [hv] at h
      have hu := pick_first hg hI hR hv
      have hv1 := List.find?_some hv
      simp only [Bool.not_eq_true'] at hv1
      have hvm := List.mem_of_find?_eq_some hv
      rw [List.mem_filter] at hvm
      have hve : (P u).length % 2 = 1 := by simpa using hvm.2
      have hu0 : P u ≠ [] := by intro e; rw [e] at hve; simp at hve
      simp only at h
      rcases apInnerT_spec (fuel0 := fuel0) hg hp (v := u) fuel0 f P m k hI hsym hve with
        ⟨f2, P1, m1, c, h1, h2, h7, h3, h4, h5, h6⟩ | ⟨f2, P1, w, c, hE, h1, h7, h2⟩ | h1
      · have hpre := apInnerT_pre _ h1 _ rfl
        rw [h1, Out.ok_bind] at h
        simp only at h
        have c1 : m1.markNode u = .ok { m1 with nodes := u :: m1.nodes } := by
          have : m1.nodes.contains u = false := by
            unfold Marker.hasNode at hv1; rw [h4]; exact hv1
          unfold Marker.markNode; rw [this]; simp
        rw [c1, Out.ok_bind] at h
        have hI2 : SInv g p f2 P1 { m1 with nodes := u :: m1.nodes } := by
          refine ⟨h2.forest, h2.pairs, h2.edges, ?_⟩
          intro x hx z haz
          show m1.hasEdge x z = true
          unfold Marker.hasNode at hx
          simp only [List.contains_cons, Bool.or_eq_true, beq_iff_eq] at hx
          rcases hx with rfl | hx
          · exact h5 z haz
          · exact h2.done x hx z haz
        exact ih f2 P1 _ _ hI2 h3 (hR.trans hpre) h
      · rw [h1, Out.ok_bind] at h
        simp only at h
        injection h with h
        injection h with h h'
        injection h with h
        injection h with e1 h
        injection h with e2 e3
        subst e1 e2 e3
        exact ⟨P1, w, hE, rfl, fun hC => ⟨hu hC, by rw [h7 u hu0]; exact hF.root_single (hu hC).unpaired hve⟩⟩
      · rw [h1] at h; cases h

theorem roots_nodes : ∀ (l : List Nat) {f f1 : Forest}, l.foldlM (fun f v => f.addRoot v) f = .ok f1 → f1.nodes = f.nodes ++ l := by
  intro l
  induction l with
  | nil => intro f f1 h; injection h with h; subst h; simp
  | cons x l ih =>
    intro f f1 h
    rw [List.foldlM_cons, Out.bind_eq_ok] at h
    obtain ⟨f2, h1, h2⟩ := h
    rw [ih h2]
    unfold Forest.addRoot at h1
    split at h1
    · injection h1 with h1; subst h1; simp
    · cases h1

/-- A search that ends with a path. -/
theorem augmentingPath_first (hg : g.Lawful) (hp : p.Matches g) {ords : Nat → HashOrder} (ho : ∀ i, (ords i).Valid)
    {n : Nat} {path : List Nat} (h : augmentingPath pf ords (n + 1) g p = .ok (some path)) :
    ∃ f P v w, EvenEdge g p f P v w ∧ (g.CliqueAt v → First g p v ∧ P v = [v]) ∧
      evenPath pf (ords n) n (augmentingPath pf ords n) v (P w) g f p = .ok (some path) := by
  rw [augmentingPathLooks_eq, Out.bind_eq_ok] at h
  obtain ⟨⟨r, ks⟩, h, h'⟩ := h
  injection h' with h'
  simp only at h'
  subst h'
  obtain ⟨m, e1, n1, h1⟩ := Marker.init_ok hp.symmetric (ho n)
  obtain ⟨f, e2, hF⟩ := roots_ok hg p
  have hI : SInv g p f _ m := ⟨hF, fun u w h => (h1 u w).2 h, fun u w h => .inl ((h1 u w).1 h), fun u hu => by
    unfold Marker.hasNode at hu; rw [n1] at hu; simp at hu⟩
  have hsym : ∀ a b, m.hasEdge a b = true → m.hasEdge b a = true :=
    fun a b h => (h1 b a).2 (hp.symmetric.get_get ((h1 a b).1 h))
  have hR : g.nodes.filter (fun x => !p.hasNode x) <+: f.nodes := by
    rw [roots_nodes _ e2]; simp [Forest.new]
  unfold augmentingPathLooks at h
  rw [e1, Out.ok_bind, e2, Out.ok_bind, apOuterLooks_eq_trace, Out.bind_eq_ok] at h
  obtain ⟨⟨o, k⟩, h2, h3⟩ := h
  cases o with
  | none => simp at h3
  | some t =>
    obtain ⟨v, pw, f1⟩ := t
    simp only at h3
    obtain ⟨P1, w, hE, rfl, hs⟩ := apOuterT_first hg hp n f _ m 0 hI hsym hR h2
    refine ⟨f1, P1, v, w, hE, hs, ?_⟩
    rw [evenPathLooks_eq (recL := augmentingPathLooks pf ords n) (fun g p => augmentingPathLooks_eq ords n g p)]
    rw [Out.bind_eq_ok] at h3
    obtain ⟨s, h4, h5⟩ := h3
    injection h5 with h5
    injection h5 with h5
    rw [h4, Out.ok_bind, h5]

theorem rotateToLast_id {B : List Nat} {c tid : Nat} (hg : g.Lawful) (hB : B.getLast? = some c) (ha : g.Adj c tid) {fuel : Nat}
    {r : List Nat} (h : Blossom.rotateToLast g tid fuel B = .ok r) : r = B := by
  cases fuel with
  | zero => cases h
  | succ n =>
    rw [Blossom.rotateToLast, hB] at h
    simp only at h
    rw [Out.bind_eq_ok] at h
    obtain ⟨e, he, h⟩ := h
    have : e = true := by
      have h1 : g.hasEdge c tid = .ok true := by
        obtain ⟨x, e1, e2⟩ := hg.hasEdge_ok c tid (hg.adj_src ha) (hg.adj_mem _ _ ha)
        rw [e1, e2.2 ha]
      rw [h1, Out.expect_ok] at he
      injection he with he; exact he.symm
    subst this
    simp at h
    exact h.symm

theorem newLoop_pre {R : List Nat} : ∀ (L pre B : List Nat), Blossom.newLoop R pre L = .ok B → ∀ x ∈ pre, x ∈ B := by
  intro L
  induction L with
  | nil => intro pre B h; cases h
  | cons a L ih =>
    intro pre B h x hx
    rw [Blossom.newLoop] at h
    split at h
    · injection h with h; subst h; simp [hx]
    · exact ih _ _ h x (by simp [hx])

theorem newLoop_head (R : List Nat) (v : Nat) (L B : List Nat) (h : Blossom.newLoop R [] (v :: L) = .ok B) : v ∈ B := by
  rw [Blossom.newLoop] at h
  split at h
  · injection h with h; subst h; simp
  · exact newLoop_pre _ _ _ h v (by simp)

/-- The unpaired nodes of the contracted graph, in order. -/
theorem Blossom.Con.unpaired' (hc : Con g p b base g' p') : g'.nodes.filter (fun x => !p'.hasNode x) =
    (if p'.get b.id = none then [b.id] else []) ++
      (g.nodes.filter (fun x => !p.hasNode x)).filter (fun x => !b.path.contains x) := by
  have hnone : ∀ x ∈ g.nodes, x ∉ b.path → p'.hasNode x = p.hasNode x := by
    intro x hx hxb
    have := hc.get_none hx (fun h => absurd h hxb)
    rw [kap_out hxb] at this
    rw [Bool.eq_iff_iff, ← Bool.not_eq_false, ← Bool.not_eq_false, hasNode_false, hasNode_false, this]
  have hrest : (g.nodes.filter (fun x => !b.path.contains x)).filter (fun x => !p'.hasNode x) =
      (g.nodes.filter (fun x => !p.hasNode x)).filter (fun x => !b.path.contains x) := by
    rw [List.filter_comm (fun x => !b.path.contains x) (fun x => !p.hasNode x)]
    refine List.filter_congr (fun x hx => ?_)
    have hx := List.mem_filter.1 hx
    rw [hnone x hx.1 (by simpa using hx.2)]
  rw [hc.nodes', List.filter_cons, hrest]
  split
  · rename_i e
    rw [if_pos (hasNode_false.1 (by simpa using e))]; rfl
  · rename_i e
    rw [if_neg (fun e' => e (by simp [hasNode_false.2 e']))]; rfl

/-- Un-contraction keeps the first unpaired node of a component, if it is not the blossom. -/
theorem First.down (hc : Con g p b base g' p') {h : Nat} (hhn : h ∈ g.nodes) (hhB : h ∉ b.path) (hfh : First g' p' h) :
    First g p h := by
  have hhid : h ≠ b.id := hc.free h hhn hhB
  have hg := hc.lawful
  refine ⟨?_, ?_⟩
  · have := (hc.get_none hhn (fun hm => absurd hm hhB)).1
    rw [kap_out hhB] at this
    exact this hfh.unpaired
  · intro l1 l2 e3 x hx hxa
    have hxn := hg.adj_src hxa
    have e4 := hc.unpaired'
    rw [e3, List.filter_append, List.filter_cons, if_pos (show (!b.path.contains h) = true by simp [hhB]), ← List.append_assoc] at e4
    refine hfh.first _ _ e4 (kap b x) ?_ ?_
    · by_cases hxB : x ∈ b.path
      · have hxu : p.get x = none := by
          have : x ∈ g.nodes.filter (fun x => !p.hasNode x) := by rw [e3]; simp [hx]
          exact hasNode_false.1 (by simpa using (List.mem_filter.1 this).2)
        have hbase := hc.flower.base_of_out hxB (fun y hy => by rw [hxu] at hy; cases hy)
        have hidn : p'.get b.id = none := by
          have := (hc.get_none hxn (fun _ => hbase)).2 hxu
          rwa [kap_in hxB] at this
        rw [kap_in hxB, if_pos hidn]; simp
      · rw [kap_out hxB]; simp [hx, hxB]
    · refine (hc.adj' _ _ ?_).2 ⟨x, h, hxa, rfl, kap_out hhB⟩
      intro e5
      by_cases hxB : x ∈ b.path
      · rw [kap_in hxB] at e5; exact hhid e5.symm
      · rw [kap_out hxB] at e5
        subst e5
        have hnd : (g.nodes.filter (fun x => !p.hasNode x)).Nodup := hg.nodes_nodup.filter _
        rw [e3, List.nodup_append] at hnd
        exact hnd.2.2 x hx x (by simp) rfl

/-- Every path the search finds, in a graph each component of which is a clique or has its odd cycles apart or has no three
disjoint edges or at most two neighbors in excess of two, is fine; in a clique it starts at the first unpaired node, and on a ring or
a line its inner nodes are paired along it. -/
theorem augmentingPath_easy {ords : Nat → HashOrder} (ho : ∀ i, (ords i).Valid) (n : Nat) :
    ∀ {g : GraphI} {p : Pairing} {path : List Nat}, g.Lawful → g.edges.Nodup → p.Matches g → g.EasyParts →
    augmentingPath pf ords n g p = .ok (some path) →
    Fine g p path ∧ ∃ v r, path = v :: r ∧ (g.CliqueAt v → First g p v) ∧ (g.ApartAt v → Good g p path) ∧
      (g.RingAt v → Tidy p path) := by
  induction n with
  | zero => intro g p path _ _ _ _ e; simp [augmentingPath] at e
  | succ n ih =>
    intro g p path hg he hp hM e
    obtain ⟨f, P, v, w, hE, hCf, e⟩ := augmentingPath_first hg hp ho e
    have hF := hE.forest
    have hv := hE.even_v
    have hw := hE.even_w
    have hv0 : P v ≠ [] := by intro e; rw [e] at hv; simp at hv
    unfold evenPath at e
    rw [hF.path] at e
    by_cases hn : n < (P v).length
    · rw [if_pos hn] at e; simp at e
    rw [if_neg hn, if_neg hv0, Out.ok_bind] at e
    simp only at e
    by_cases hl : (P v).getLast? = (P w).getLast?
    · have hl' : ((P v).getLast? == (P w).getLast?) = true := by simpa using hl
      rw [if_pos hl'] at e
      obtain ⟨B, base, s, hB, hFd⟩ := hF.found hg hp hv hw hE.adj hl
      have hvB : v ∈ B := by
        obtain ⟨k, hk⟩ := hF.head hv0
        rw [hk] at hB
        exact newLoop_head _ _ _ _ hB
      rcases processBlossom_eq (pf := pf) hg he hp hp rfl (ho n) (ho n) (fuel := n) (rec := augmentingPath pf ords n)
        (rec' := augmentingPath pf ords n) hB hFd with ⟨m, e1, -⟩ | ⟨b, g', p', q', hb, hc, -, -, -, e1, -⟩
      · rw [e1] at e; simp at e
      subst hb
      rw [e1, Out.bind_eq_ok] at e
      obtain ⟨r, h2, h3⟩ := e
      cases r with
      | none => simp at h3
      | some path' =>
        simp only at h3
        rw [Out.bind_eq_ok] at h3
        obtain ⟨l, h4, h5⟩ := h3
        injection h5 with h5; injection h5 with h5; subst h5
        have hvn : v ∈ g.nodes := hc.flower.sub v hvB
        have hcyc := hFd.cyclic
        have hBv : ∀ x ∈ b.path, g.simple.Reachable v x := fun x hx => chain_pair hg hcyc.chain hvB hx
        obtain ⟨hG, h, r, rfl, hfh, hGd, hTd⟩ := ih hc.lawful' hc.edges' hc.matches' (hc.easy hcyc hFd.odd hM) h2
        have hle := lift_le (g := g) (show n ≤ n + b.path.length + 1 by omega) b (h :: r)
        have h4' := hle.eq h4 (by simp)
        have hl1 : IsPath g l := by
          obtain ⟨l', e', hl'⟩ := lift_ok (fuel := n + b.path.length + 1) hc hcyc hG.isPath (by omega)
          rw [h4'] at e'
          injection e' with e'; rw [e']; exact hl'
        by_cases hidp : b.id ∈ h :: r
        · -- the path passes the blossom
          have hidh : g'.simple.Reachable b.id h := chain_pair hc.lawful' hG.isPath.chain hidp (by simp)
          have hkv : kap b v = b.id := kap_in hvB
          have hgood : g.ApartAt v → Good g p l := fun hA =>
            lift_good hc hFd hA.on hBv (hGd ((hkv ▸ hc.apartAt hcyc hFd.odd hvn hA).move hidh)) (by omega) h4'
          have hlv : ∀ x ∈ l, g.simple.Reachable v x := by
            obtain ⟨left, right, e3⟩ := List.append_of_mem hidp
            obtain ⟨mid, e4, -, hm0, hm1, -⟩ := lift_spec (b := b) (g := g) (g' := g') ⟨hc.lawful, hc.free, hc.flower.nodup, hc.flower.sub, hc.lawful', hc.nodes', hc.adj'⟩ hcyc (List.ne_nil_of_mem hvB) (e3 ▸ hG.isPath)
              (show b.path.length < n + b.path.length + 1 by omega)
            rw [← e3, h4'] at e4
            injection e4 with e4
            obtain ⟨y, hy⟩ := List.exists_mem_of_ne_nil _ hm0
            intro x hx
            exact (hBv y (hm1 y hy)).trans (chain_pair hg hl1.chain (by rw [e4]; simp [hy]) hx)
          have htidy : g.RingAt v → Tidy p l := by
            intro hR
            obtain ⟨left, right, e3⟩ := List.append_of_mem hidp
            have hG' := hG
            have h4'' := h4'
            rw [e3] at hG' h4''
            rcases hc.one_or_three hcyc hFd.odd with h1 | h3
            · rw [(fine_whole hc hFd hG' (.inr (.inr h1)) (by omega) h4'').2 h1]
              exact Tidy.one hc h1 hG'.isPath (e3 ▸ hTd ((hkv ▸ hc.ringAt hcyc hFd.odd hvn hR).move hidh))
            · refine (hc.ring_no_path hcyc hFd.odd hvB hR h3 hG'.isPath ?_).elim
              have hev := hG'.even
              simp at hev ⊢; omega
          by_cases hC : g.CliqueAt v
          · obtain ⟨hf, hPv⟩ := hCf hC
            have hB' : ∃ B1, b.path = v :: B1 := by
              rw [hPv, Blossom.newLoop] at hB
              split at hB
              · injection hB with hB; exact ⟨_, hB.symm⟩
              · simp [Blossom.newLoop] at hB
            obtain ⟨B1, hB1⟩ := hB'
            have hbase : v = base := hc.flower.base_of_out hvB (fun y hy => by rw [hf.unpaired] at hy; cases hy)
            subst hbase
            have hidn : p'.get b.id = none := by
              have := (hc.get_none hvn (fun _ => rfl)).2 hf.unpaired
              rwa [kap_in hvB] at this
            have hC' : g'.CliqueAt b.id := hkv ▸ hc.cliqueAt hcyc hvn hC
            have hfh := hfh (hC'.move hidh)
            have hhid : h = b.id := by
              rcases hC'.pair (.refl _) hidh with e | e
              · exact e.symm
              · by_contra hhid
                have hhR : h ∈ (g.nodes.filter (fun x => !p.hasNode x)).filter (fun x => !b.path.contains x) := by
                  have : h ∈ g'.nodes.filter (fun x => !p'.hasNode x) :=
                    List.mem_filter.2 ⟨hG.isPath.mem h (by simp), by rw [hasNode_false.2 hfh.unpaired]; rfl⟩
                  rw [hc.unpaired', if_pos hidn] at this
                  exact (List.mem_cons.1 this).resolve_left hhid
                obtain ⟨l1, l2, e3⟩ := List.append_of_mem hhR
                exact hfh.first (b.id :: l1) l2 (by rw [hc.unpaired', if_pos hidn, e3]; rfl) b.id (by simp) e
            subst hhid
            have hidx : (b.id :: r).findIdx? (fun pid => pid == b.id) = some 0 := by simp [List.findIdx?_cons]
            unfold Blossom.lift at h4
            rw [hidx] at h4
            cases r with
            | nil => have := hG.even; simp at this
            | cons t r =>
              simp only [List.take_zero, Nat.zero_add, List.drop_one, List.tail_cons, List.isEmpty_nil, List.isEmpty_cons] at h4
              simp only [Bool.false_eq_true, if_false, Bool.not_true, Bool.not_false, Bool.and_true, Bool.and_false, if_true] at h4
              unfold Blossom.liftBlossomRight at h4
              rw [show vecIndex (t :: r) 0 = .ok t from rfl, Out.ok_bind, Out.bind_eq_ok] at h4
              obtain ⟨copy, h6, h7⟩ := h4
              injection h7 with h7
              obtain ⟨c, hcl⟩ : ∃ c, b.path.getLast? = some c := ⟨_, List.getLast?_eq_some_getLast (by rw [hB1]; simp)⟩
              have hcB := List.mem_of_getLast? hcl
              have hnd := hG.isPath.nodup
              have htid : t ≠ b.id := fun e => (List.nodup_cons.1 hnd).1 (by rw [e]; simp)
              have hct : g.Adj c t := by
                have ha : g'.Adj b.id t := (List.isChain_cons_cons.1 hG.isPath.chain).1
                obtain ⟨x, y, hxy, k1, k2⟩ := (hc.adj' _ _ (Ne.symm htid)).1 ha
                have hyt := hc.preimage htid k2
                subst hyt
                have hxB := (hc.free.kap_eq_id (hg.adj_src hxy)).1 k1
                have htB := (hc.out_of_ne (hG.isPath.mem y (by simp)) htid).2
                exact hC c y (hBv c hcB) ((hBv x hxB).trans (Adj.reach hg hxy)) (fun e => htB (e ▸ hcB))
              have hcopy := rotateToLast_id hg hcl hct h6
              subst hcopy
              subst h7
              refine ⟨?_, v, B1 ++ t :: r, by rw [hB1]; rfl, fun _ => hf, hgood, htidy⟩
              have := fine_of_arc (left := []) (right := t :: r) (arc := b.path) hc hG (by simpa using hl1) hFd.odd hvB
                hc.flower.inner
              simpa using this
          · have hfine : Fine g p l := by
              obtain ⟨left, right, e3⟩ := List.append_of_mem hidp
              have hG' := hG
              rw [e3] at hG' h4'
              rcases (hM v hvn).resolve_left hC with hA | hN | hS
              · exact (hgood hA).fine
              · refine (fine_whole hc hFd hG' ?_ (show b.path.length < n + b.path.length + 1 by omega) h4').1
                rcases hc.one_or_three hcyc hFd.odd with h1 | h3
                · exact .inr (.inr h1)
                · have hs := hc.narrow_short hcyc hvB hN h3 hG'.isPath
                  have hev := hG'.even
                  cases left with
                  | nil => exact .inl rfl
                  | cons a left =>
                    cases right with
                    | nil => exact .inr (.inl rfl)
                    | cons c right => simp at hs hev; omega
              · exact fine_slim hc hFd hvB hS hG' (fun hR => e3 ▸ hTd (hR.move hidh)) (by omega) h4'
            cases l with
            | nil => exact absurd rfl hl1.ne
            | cons a l =>
              have hva := hlv a (by simp)
              exact ⟨hfine, a, l, rfl, fun hCa => absurd (hCa.move hva.symm) hC, fun hA => hgood (hA.move hva.symm), fun hR => htidy (hR.move hva.symm)⟩
        · -- the blossom is off the path
          have hidx : (h :: r).findIdx? (fun pid => pid == b.id) = none := by
            rw [List.findIdx?_eq_none_iff]
            intro x hx
            simp only [beq_eq_false_iff_ne]
            exact fun e => hidp (e ▸ hx)
          unfold Blossom.lift at h4
          rw [hidx] at h4
          injection h4 with h4
          subst h4
          have hhid : h ≠ b.id := fun e => hidp (by rw [e]; simp)
          obtain ⟨hhn, hhB⟩ := hc.out_of_ne (hG.isPath.mem h (by simp)) hhid
          have hkh : kap b h = h := kap_out hhB
          refine ⟨fine_of_out hc hG hidp hl1, h, r, rfl, fun hC => ?_, fun hA => ?_,
            fun hR => (hTd (hkh ▸ hc.ringAt hcyc hFd.odd hhn hR)).off hc hidp⟩
          · exact (hfh (hkh ▸ hc.cliqueAt hcyc hhn hC)).down hc hhn hhB
          · refine good_of_out hc (hGd (hkh ▸ hc.apartAt hcyc hFd.odd hhn hA)) hidp hl1 (fun C x hC hx hxC => ?_)
            obtain ⟨D, hD, mD⟩ := hc.cycle_down hcyc hFd.odd hhn hA hC hxC
              (hkh.symm ▸ chain_pair hc.lawful' hG.isPath.chain (by simp) hx)
            exact ⟨D, hD, (mD x).2 ⟨x, hxC, by simp [unkap, show x ≠ b.id from fun e => hidp (e ▸ hx)]⟩⟩
    · have hl' : ((P v).getLast? == (P w).getLast?) = false := by simpa using hl
      rw [hl'] at e
      simp at e; subst e
      obtain ⟨a1, a2⟩ := hF.augmenting hg hp hv hw hE.adj hl
      have hgd := Good.of_augmenting hp.symmetric a1 a2
      cases hq : (P v).reverse with
      | nil => exact absurd (List.reverse_eq_nil_iff.1 hq) hv0
      | cons a l =>
        rw [hq] at hgd
        refine ⟨hgd.fine, a, l ++ P w, rfl, fun hC => ?_, fun _ => hgd, fun _ => ?_⟩
        · obtain ⟨k, hk⟩ := hF.head hv0
          have hav : g.simple.Reachable a v := by
            refine chain_pair hg (hF.chain_root _ v le_rfl hv0).1 ?_ (by rw [hk]; simp)
            rw [← List.mem_reverse, hq]; simp
          obtain ⟨hf, hPv⟩ := hCf (hC.move hav)
          rw [hPv] at hq
          simp at hq
          rw [← hq.1]; exact hf
        · have := Tidy.of_augmenting hp.symmetric a1
          rw [hq] at this; exact this

/-- Every path the search finds, in a graph each component of which is a clique or has its odd cycles apart, is fine. -/
theorem augmentingPath_mixed {ords : Nat → HashOrder} (ho : ∀ i, (ords i).Valid) (n : Nat) {g : GraphI} {p : Pairing}
    {path : List Nat} (hg : g.Lawful) (he : g.edges.Nodup) (hp : p.Matches g) (hM : g.CliquesOrApart)
    (e : augmentingPath pf ords n g p = .ok (some path)) :
    Fine g p path := (augmentingPath_easy ho n hg he hp hM.easy e).1

/-- Every path the search finds, in a graph whose components are cliques, is fine. -/
theorem augmentingPath_cliques {ords : Nat → HashOrder} (ho : ∀ i, (ords i).Valid) (n : Nat) {g : GraphI} {p : Pairing}
    {path : List Nat} (hg : g.Lawful) (he : g.edges.Nodup) (hp : p.Matches g) (hC : g.Cliques)
    (e : augmentingPath pf ords n g p = .ok (some path)) : Fine g p path :=
  augmentingPath_mixed ho n hg he hp (hC.mixed hg) e

end Gamma
