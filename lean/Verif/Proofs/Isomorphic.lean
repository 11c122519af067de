import Verif.Proofs.MaxMatching
/-
`maximum_matching` on a graph whose nodes have other names and whose edges may have other directions.
-/
namespace Gamma
open Pairing Blossom DefaultGraph

/-- The edge with its ends renamed, in either direction. -/
def EdgeRen (φ : Nat → Nat) (e e' : Nat × Nat) : Prop := e' = (φ e.1, φ e.2) ∨ e' = (φ e.2, φ e.1)

/-- A function that is injective on a list agrees there with an injective function. -/
theorem exists_injective (f : Nat → Nat) (S : List Nat) (hf : ∀ u ∈ S, ∀ v ∈ S, f u = f v → u = v) :
    ∃ ψ : Nat → Nat, Function.Injective ψ ∧ ∀ v ∈ S, ψ v = f v := by
  have hle : ∀ v ∈ S, f v ≤ (S.map f).sum := fun v hv => List.le_sum_of_mem (List.mem_map_of_mem hv)
  refine ⟨fun x => if x ∈ S then f x else (S.map f).sum + 1 + x, ?_, fun v hv => by simp [hv]⟩
  intro u v e
  simp only at e
  by_cases hu : u ∈ S <;> by_cases hv : v ∈ S
  · simp only [hu, hv, if_true] at e; exact hf u hu v hv e
  · simp only [hu, hv, if_true, if_false] at e; have := hle u hu; omega
  · simp only [hu, hv, if_true, if_false] at e; have := hle v hv; omega
  · simp only [hu, hv, if_false] at e; omega

theorem DefaultGraph.addEdgeQ_inv {r r1 : DefaultGraph} (h : r.WF) {s t : Nat} (e : r.addEdgeQ s t = .ok r1) :
    s ∈ r.nodes ∧ t ∈ r.nodes ∧ ¬ r.toI.Adj s t ∧ AddedEdge r r1 s t := by
  by_cases hs : s ∈ r.nodes
  · by_cases ht : t ∈ r.nodes
    · by_cases ha : r.toI.Adj s t
      · rw [addEdgeQ_dup h hs ht ha] at e; cases e
      · obtain ⟨g', e', -, h'⟩ := addEdgeQ_new h hs ht ha
        rw [e] at e'; cases e'
        exact ⟨hs, ht, ha, h'⟩
    · simp [addEdgeQ, h.addEdge_missing_right hs ht] at e
  · simp [addEdgeQ, h.addEdge_missing_left hs] at e

theorem DefaultGraph.addNodeQ_inv {r r1 : DefaultGraph} (h : r.WF) {v : Nat} (e : r.addNodeQ v = .ok r1) :
    v ∉ r.nodes ∧ AddedNode r r1 v := by
  by_cases hv : v ∈ r.nodes
  · rw [addNodeQ_dup h hv] at e; cases e
  · obtain ⟨g', e', -, h'⟩ := addNodeQ_new h hv
    rw [e] at e'; cases e'
    exact ⟨hv, h'⟩

/-- Two graphs under construction that are the same but for the names. -/
structure DRel (φ : Nat → Nat) (r r' : DefaultGraph) : Prop where
  reach : r.Reachable
  reach' : r'.Reachable
  along : GraphI.Along φ r.toI r'.toI
  edges : List.Forall₂ (EdgeRen φ) r.edges r'.edges

theorem DRel.new {φ : Nat → Nat} (hφ : Function.Injective φ) : DRel φ .new .new :=
  ⟨.new, .new, ⟨hφ, DefaultGraph.Reachable.new.lawful, DefaultGraph.Reachable.new.lawful, rfl,
    fun v hv => by simp [toI, DefaultGraph.new] at hv⟩, .nil⟩

theorem DRel.addNode {φ : Nat → Nat} {r r' r1 r1' : DefaultGraph} (h : DRel φ r r') {v : Nat} (e : r.addNodeQ v = .ok r1)
    (e' : r'.addNodeQ (φ v) = .ok r1') : DRel φ r1 r1' := by
  obtain ⟨hv, a⟩ := addNodeQ_inv h.reach.wf e
  obtain ⟨hv', a'⟩ := addNodeQ_inv h.reach'.wf e'
  have hr1 := Reachable_addNodeQ h.reach e
  have hr1' := Reachable_addNodeQ h.reach' e'
  refine ⟨hr1, hr1', ⟨h.along.inj, hr1.lawful, hr1'.lawful, ?_, ?_⟩, ?_⟩
  · show r1'.nodes = r1.nodes.map φ
    rw [a.nodes, a'.nodes, List.map_append, show r'.nodes = r.nodes.map φ from h.along.nodes]; rfl
  · intro x hx
    by_cases hxv : x = v
    · subst hxv
      rw [a.nbr_new, a'.nbr_new]; rfl
    · rw [a.nbr_old hxv, a'.nbr_old (fun e => hxv (h.along.inj e))]
      refine h.along.nbr x ?_
      have : x ∈ r1.nodes := hx
      rw [a.nodes, List.mem_append, List.mem_singleton] at this
      exact this.resolve_right hxv
  · rw [a.edges, a'.edges]; exact h.edges

theorem DRel.addEdge {φ : Nat → Nat} {r r' r1 r1' : DefaultGraph} (h : DRel φ r r') {s t s' t' : Nat} (e : r.addEdgeQ s t = .ok r1)
    (he : EdgeRen φ (s, t) (s', t')) (e' : r'.addEdgeQ s' t' = .ok r1') : DRel φ r1 r1' := by
  obtain ⟨hs, ht, ha, a⟩ := addEdgeQ_inv h.reach.wf e
  obtain ⟨hs', ht', ha', a'⟩ := addEdgeQ_inv h.reach'.wf e'
  have hr1 := Reachable_addEdgeQ h.reach e
  have hr1' := Reachable_addEdgeQ h.reach' e'
  have hφ := h.along.inj
  refine ⟨hr1, hr1', ⟨hφ, hr1.lawful, hr1'.lawful, ?_, ?_⟩, ?_⟩
  · show r1'.nodes = r1.nodes.map φ
    rw [a.nodes, a'.nodes]; exact h.along.nodes
  · intro x hx
    have hx0 : x ∈ r.nodes := by rw [← a.nodes]; exact hx
    have hx0' : φ x ∈ r'.nodes := h.along.mem.2 hx0
    rw [a.nbr h.reach.wf hx0, a'.nbr h.reach'.wf hx0', h.along.nbr x hx0, List.map_append, List.map_append]
    have m : ∀ a b : Nat, ((if x = a then [b] else []) : List Nat).map φ = if x = a then [φ b] else [] := by
      intro a b; split <;> rfl
    rw [m, m]
    rcases he with he | he
    · simp only [Prod.mk.injEq] at he
      obtain ⟨rfl, rfl⟩ := he
      simp only [hφ.eq_iff]
    · simp only [Prod.mk.injEq] at he
      obtain ⟨rfl, rfl⟩ := he
      simp only [hφ.eq_iff]
      by_cases h1 : x = s
      · subst h1
        by_cases h2 : x = t
        · subst h2; rfl
        · simp [h2]
      · simp [h1]
  · rw [a.edges, a'.edges]
    exact List.rel_append h.edges (.cons he .nil)

theorem foldlM_rel {α α' β β' : Type} {R : α → α' → Prop} {S : β → β' → Prop} {f : β → α → Out β} {f' : β' → α' → Out β'}
    (step : ∀ a a' b b' b1 b1', S b b' → R a a' → f b a = .ok b1 → f' b' a' = .ok b1' → S b1 b1') {l : List α} {l' : List α'}
    (hl : List.Forall₂ R l l') : ∀ {b : β} {b' : β'} {c : β} {c' : β'}, S b b' → l.foldlM f b = .ok c → l'.foldlM f' b' = .ok c' →
      S c c' := by
  induction hl with
  | nil => intro b b' c c' h e e'; cases e; cases e'; exact h
  | cons ha _ ih =>
    intro b b' c c' h e e'
    rw [List.foldlM_cons] at e e'
    obtain ⟨b1, e1, e⟩ := Out.bind_eq_ok.1 e
    obtain ⟨b1', e1', e'⟩ := Out.bind_eq_ok.1 e'
    exact ih (step _ _ _ _ _ _ h ha e1 e1') e e'

/-- The blossom with its nodes renamed. -/
def Blossom.ren (φ : Nat → Nat) (b : Blossom) : Blossom := ⟨φ b.id, b.path.map φ⟩

theorem kap_ren {φ : Nat → Nat} (hφ : Function.Injective φ) (b : Blossom) (x : Nat) : kap (b.ren φ) (φ x) = φ (kap b x) := by
  by_cases h : x ∈ b.path
  · rw [kap_in h, kap_in (show φ x ∈ (b.ren φ).path from List.mem_map_of_mem h)]; rfl
  · rw [kap_out h, kap_out (fun hc => h ((List.mem_map_of_injective hφ).1 hc))]

/-- What a successful `contract_edge` did. -/
theorem Blossom.contractEdge_inv {b : Blossom} {r r1 : DefaultGraph} (hr : r.Reachable) {x : Nat × Nat}
    (e : b.contractEdge r x = .ok r1) :
    (r1 = r ∧ x.1 ∈ b.path ∧ x.2 ∈ b.path) ∨
    (¬ (x.1 ∈ b.path ∧ x.2 ∈ b.path) ∧ ((r1 = r ∧ r.toI.Adj (kap b x.1) (kap b x.2)) ∨
      r.addEdgeQ (kap b x.1) (kap b x.2) = .ok r1)) := by
  have has : ∀ u v, r.hasEdge u v = .ok true → r.toI.Adj u v := by
    intro u v h
    have hl := hr.lawful
    have h' : r.toI.hasEdge u v = .ok true := h
    by_cases hu : u ∈ r.toI.nodes
    · by_cases hv : v ∈ r.toI.nodes
      · obtain ⟨w, e, hw⟩ := hl.hasEdge_ok u v hu hv
        rw [h'] at e; cases e
        exact hw.1 rfl
      · rw [hl.hasEdge_err_right u v hu hv] at h'; cases h'
    · rw [hl.hasEdge_err_left u v hu] at h'; cases h'
  unfold contractEdge at e
  by_cases h1 : x.1 ∈ b.path <;> by_cases h2 : x.2 ∈ b.path
  · simp only [List.contains_iff_mem.2 h1, List.contains_iff_mem.2 h2, if_true, Bool.not_true, Bool.false_eq_true, if_false] at e
    cases e
    exact .inl ⟨rfl, h1, h2⟩
  · have c2 : b.path.contains x.2 = false := by simpa using h2
    simp only [List.contains_iff_mem.2 h1, c2, if_true, Bool.not_false] at e
    obtain ⟨w, ew, e⟩ := Out.bind_eq_ok.1 e
    rw [kap_in h1, kap_out h2]
    refine .inr ⟨fun h => h2 h.2, ?_⟩
    cases w with
    | true => simp only [Bool.not_true, Bool.false_eq_true, if_false] at e; cases e; exact .inl ⟨rfl, has _ _ ew⟩
    | false => simp only [Bool.not_false, if_true] at e; exact .inr e
  · have c1 : b.path.contains x.1 = false := by simpa using h1
    simp only [List.contains_iff_mem.2 h2, c1, if_true, Bool.false_eq_true, if_false] at e
    obtain ⟨w, ew, e⟩ := Out.bind_eq_ok.1 e
    rw [kap_in h2, kap_out h1]
    refine .inr ⟨fun h => h1 h.1, ?_⟩
    cases w with
    | true => simp only [Bool.not_true, Bool.false_eq_true, if_false] at e; cases e; exact .inl ⟨rfl, has _ _ ew⟩
    | false => simp only [Bool.not_false, if_true] at e; exact .inr e
  · have c1 : b.path.contains x.1 = false := by simpa using h1
    have c2 : b.path.contains x.2 = false := by simpa using h2
    simp only [c1, c2, Bool.false_eq_true, if_false] at e
    rw [kap_out h1, kap_out h2]
    exact .inr ⟨fun h => h1 h.1, .inr e⟩

theorem DRel.contractEdge {φ : Nat → Nat} {b : Blossom} {r r' r1 r1' : DefaultGraph} (h : DRel φ r r') {x x' : Nat × Nat}
    (hx : EdgeRen φ x x') (e : b.contractEdge r x = .ok r1) (e' : (b.ren φ).contractEdge r' x' = .ok r1') : DRel φ r1 r1' := by
  have hφ := h.along.inj
  have hin : ∀ y, φ y ∈ (b.ren φ).path ↔ y ∈ b.path := fun y => List.mem_map_of_injective hφ
  have hin' : (x'.1 ∈ (b.ren φ).path ∧ x'.2 ∈ (b.ren φ).path) ↔ (x.1 ∈ b.path ∧ x.2 ∈ b.path) := by
    rcases hx with rfl | rfl
    · simp only [hin]
    · simp only [hin]; exact And.comm
  have hk : EdgeRen φ (kap b x.1, kap b x.2) (kap (b.ren φ) x'.1, kap (b.ren φ) x'.2) := by
    rcases hx with rfl | rfl
    · left; simp only [kap_ren hφ]
    · right; simp only [kap_ren hφ]
  have hadj : r'.toI.Adj (kap (b.ren φ) x'.1) (kap (b.ren φ) x'.2) ↔ r.toI.Adj (kap b x.1) (kap b x.2) := by
    rcases hx with rfl | rfl
    · simp only [kap_ren hφ]; exact h.along.adj
    · simp only [kap_ren hφ]
      rw [h.along.adj]
      exact ⟨h.along.lawful.adj_symm _ _, h.along.lawful.adj_symm _ _⟩
  rcases contractEdge_inv h.reach e with ⟨rfl, hb⟩ | ⟨hb, hc⟩
  · rcases contractEdge_inv h.reach' e' with ⟨rfl, -⟩ | ⟨hb', -⟩
    · exact h
    · exact absurd (hin'.2 hb) hb'
  · rcases contractEdge_inv h.reach' e' with ⟨-, hb'⟩ | ⟨-, hc'⟩
    · exact absurd (hin'.1 hb') hb
    · rcases hc with ⟨rfl, ha⟩ | hc
      · rcases hc' with ⟨rfl, -⟩ | hc'
        · exact h
        · exact absurd (hadj.2 ha) (addEdgeQ_inv h.reach'.wf hc').2.2.1
      · rcases hc' with ⟨-, ha'⟩ | hc'
        · exact absurd (hadj.1 ha') (addEdgeQ_inv h.reach.wf hc).2.2.1
        · exact h.addEdge hc hk hc'

theorem DRel.contractNode {φ : Nat → Nat} {b : Blossom} {r r' r1 r1' : DefaultGraph} (h : DRel φ r r') {x : Nat}
    (e : b.contractNode r x = .ok r1) (e' : (b.ren φ).contractNode r' (φ x) = .ok r1') : DRel φ r1 r1' := by
  unfold Blossom.contractNode at e e'
  rw [show (b.ren φ).path = b.path.map φ from rfl, contains_map h.along.inj] at e'
  split at e
  · rename_i hc; rw [if_pos hc] at e'; exact h.addNode e e'
  · rename_i hc; rw [if_neg hc] at e'; cases e; cases e'; exact h

theorem contractGraph_ren {φ : Nat → Nat} {b : Blossom} {g h : GraphI} (ha : GraphI.Along φ g h)
    (hE : List.Forall₂ (EdgeRen φ) g.edges h.edges) {r r' : DefaultGraph} (e : b.contractGraph g = .ok r)
    (e' : (b.ren φ).contractGraph h = .ok r') : DRel φ r r' := by
  unfold Blossom.contractGraph at e e'
  obtain ⟨r0, e0, e⟩ := Out.bind_eq_ok.1 e
  obtain ⟨r0', e0', e'⟩ := Out.bind_eq_ok.1 e'
  obtain ⟨r2, e2, e⟩ := Out.bind_eq_ok.1 e
  obtain ⟨r2', e2', e'⟩ := Out.bind_eq_ok.1 e'
  have h0 : DRel φ r0 r0' := (DRel.new ha.inj).addNode e0 e0'
  have hN : List.Forall₂ (fun v v' => v' = φ v) g.nodes h.nodes := by
    rw [ha.nodes, List.forall₂_map_right_iff]
    exact List.forall₂_same.2 (fun _ _ => rfl)
  have h2 : DRel φ r2 r2' := by
    refine foldlM_rel ?_ hN h0 e2 e2'
    rintro a a' c c' c1 c1' hc rfl f1 f2
    exact hc.contractNode f1 f2
  exact foldlM_rel (fun a a' c c' c1 c1' hc hx f1 f2 => hc.contractEdge hx f1 f2) hE h2 e e'

/-! ### Lifting -/

theorem vecIndex_ren {φ : Nat → Nat} (l : List Nat) (i : Nat) : vecIndex (l.map φ) i = (vecIndex l i).ren φ φ := by
  unfold vecIndex
  rw [List.getElem?_map]
  cases l[i]? <;> rfl

theorem rotateRight1_ren {φ : Nat → Nat} (l : List Nat) : rotateRight1 (l.map φ) = (rotateRight1 l).map φ := by
  unfold rotateRight1
  rw [List.getLast?_map]
  cases l.getLast? with
  | none => rfl
  | some x => simp [List.map_dropLast]

section
variable {φ : Nat → Nat} {g h : GraphI}

theorem rotateToHead_ren (ha : GraphI.Along φ g h) (sid n : Nat) : ∀ l : List Nat,
    rotateToHead h (φ sid) n (l.map φ) = (rotateToHead g sid n l).ren φ (List.map φ) := by
  induction n with
  | zero => intro l; rfl
  | succ n ih =>
    intro l
    rw [rotateToHead, rotateToHead, vecIndex_ren]
    refine Out.bind_ren _ (fun c0 => ?_)
    rw [ha.hasEdge, Out.expect_ren]
    refine Out.bind_ren _ (fun b => ?_)
    cases b with
    | true => rfl
    | false => simp only [_root_.id, Bool.not_false, if_true]; rw [rotateRight1_ren, ih]

theorem rotateToLast_ren (ha : GraphI.Along φ g h) (tid n : Nat) : ∀ l : List Nat,
    rotateToLast h (φ tid) n (l.map φ) = (rotateToLast g tid n l).ren φ (List.map φ) := by
  induction n with
  | zero => intro l; rfl
  | succ n ih =>
    intro l
    rw [rotateToLast, rotateToLast, List.getLast?_map]
    cases l.getLast? with
    | none => rfl
    | some c =>
      simp only [Option.map_some]
      rw [ha.hasEdge, Out.expect_ren]
      refine Out.bind_ren _ (fun b => ?_)
      cases b with
      | true => rfl
      | false => simp only [_root_.id, Bool.not_false, if_true]; rw [rotateRight1_ren, ih]

theorem pushUntil_ren (ha : GraphI.Along φ g h) (tid : Nat) (l : List Nat) : ∀ out : List Nat,
    pushUntil h (φ tid) (l.map φ) (out.map φ) = (pushUntil g tid l out).ren φ (List.map φ) := by
  induction l with
  | nil => intro out; rfl
  | cons x l ih =>
    intro out
    rw [List.map_cons, pushUntil, pushUntil, ha.hasEdge, Out.expect_ren]
    refine Out.bind_ren _ (fun b => ?_)
    have : out.map φ ++ [φ x] = (out ++ [x]).map φ := by simp
    cases b with
    | true => simp only [_root_.id, if_true]; rw [this]; rfl
    | false => simp only [_root_.id, Bool.false_eq_true, if_false]; rw [this, ih]

theorem liftThrough_ren (ha : GraphI.Along φ g h) (n : Nat) (bp left right : List Nat) (sid tid : Nat) :
    liftThrough n (bp.map φ) (left.map φ) (right.map φ) (φ sid) (φ tid) h =
      (liftThrough n bp left right sid tid g).ren φ (List.map φ) := by
  unfold liftThrough
  rw [rotateToHead_ren ha]
  refine Out.bind_ren _ (fun bl => ?_)
  rw [pushUntil_ren ha]
  refine Out.bind_ren _ (fun out => ?_)
  simp [Out.ren]

theorem lift_ren (ha : GraphI.Along φ g h) (b : Blossom) (n : Nat) (path : List Nat) :
    (b.ren φ).lift n (path.map φ) h = (b.lift n path g).ren φ (List.map φ) := by
  have hφ := ha.inj
  unfold lift
  rw [List.findIdx?_map]
  have : (fun pid => pid == (b.ren φ).id) ∘ φ = fun pid => pid == b.id := by
    funext x
    show (φ x == φ b.id) = (x == b.id)
    rw [Bool.eq_iff_iff, beq_iff_eq, beq_iff_eq, hφ.eq_iff]
  rw [this]
  cases path.findIdx? (fun pid => pid == b.id) with
  | none => rfl
  | some index =>
    simp only [← List.map_take, ← List.map_drop, List.isEmpty_map]
    split
    · rfl
    split
    · unfold liftLeftBlossom
      rw [List.getLast?_map]
      cases (path.take index).getLast? with
      | none => rfl
      | some sid =>
        simp only [Option.map_some]
        rw [show (b.ren φ).path = b.path.map φ from rfl, rotateToHead_ren ha]
        exact Out.bind_ren _ (fun c => by simp [Out.ren])
    split
    · unfold liftBlossomRight
      rw [vecIndex_ren]
      refine Out.bind_ren _ (fun tid => ?_)
      rw [show (b.ren φ).path = b.path.map φ from rfl, rotateToLast_ren ha]
      exact Out.bind_ren _ (fun c => by simp [Out.ren])
    · unfold liftLeftBlossomRight
      rw [List.getLast?_map]
      cases (path.take index).getLast? with
      | none => rfl
      | some sid =>
        simp only [Option.map_some]
        rw [vecIndex_ren]
        refine Out.bind_ren _ (fun tid => ?_)
        rw [show (b.ren φ).path = b.path.map φ from rfl, liftThrough_ren ha]
        refine Out.bind_ren _ (fun fw => ?_)
        rw [List.length_map]
        split
        · rfl
        · rw [← List.map_reverse, liftThrough_ren ha]

theorem newLoop_ren (hφ : Function.Injective φ) (right left : List Nat) : ∀ pre : List Nat,
    Blossom.newLoop (right.map φ) (pre.map φ) (left.map φ) = (Blossom.newLoop right pre left).ren φ (List.map φ) := by
  induction left with
  | nil => intro pre; rfl
  | cons x l ih =>
    intro pre
    rw [List.map_cons, Blossom.newLoop, Blossom.newLoop, contains_map hφ]
    split
    · rw [List.takeWhile_map]
      have : (fun y => y != φ x) ∘ φ = fun y => y != x := by
        funext y
        show (φ y != φ x) = (y != x)
        rw [Bool.eq_iff_iff, bne_iff_ne, bne_iff_ne, Ne, hφ.eq_iff]
      rw [this]
      simp [Out.ren]
    · have : pre.map φ ++ [φ x] = (pre ++ [x]).map φ := by simp
      rw [this, ih]

end

/-! ### The search and the loop -/

theorem map_eq_of_agree {φ ψ : Nat → Nat} {S l : List Nat} (h : ∀ v ∈ S, ψ v = φ v) (hl : ∀ v ∈ l, v ∈ S) : l.map ψ = l.map φ :=
  List.map_congr_left (fun v hv => h v (hl v hv))

theorem GraphI.Along.agree {φ ψ : Nat → Nat} {g h : GraphI} (a : GraphI.Along φ g h) (hψ : Function.Injective ψ)
    (e : ∀ v ∈ g.nodes, ψ v = φ v) : GraphI.Along ψ g h :=
  ⟨hψ, a.lawful, a.lawful', by rw [a.nodes, map_eq_of_agree e (fun _ h => h)], fun v hv => by
    rw [e v hv, a.nbr v hv, map_eq_of_agree e]
    exact fun w hw => a.lawful.adj_mem v w (GraphI.mem_nbr.1 hw)⟩

theorem edgeRen_agree {φ ψ : Nat → Nat} {g h : GraphI} (hg : g.Lawful) (e : ∀ v ∈ g.nodes, ψ v = φ v)
    (hE : List.Forall₂ (EdgeRen φ) g.edges h.edges) : List.Forall₂ (EdgeRen ψ) g.edges h.edges := by
  have key : ∀ {l : List (Nat × Nat)} {l' : List (Nat × Nat)}, List.Forall₂ (EdgeRen φ) l l' → (∀ x ∈ l, x ∈ g.edges) →
      List.Forall₂ (EdgeRen ψ) l l' := by
    intro l l' h
    induction h with
    | nil => intro _; exact .nil
    | @cons x x' l l' hx _ ih =>
      intro hm
      refine .cons ?_ (ih (fun y hy => hm y (List.mem_cons_of_mem _ hy)))
      have ha := hg.edges_adj x.1 x.2 (hm x List.mem_cons_self)
      unfold EdgeRen
      rw [e _ (hg.adj_src ha), e _ (hg.adj_mem _ _ ha)]
      exact hx
  exact key hE (fun _ h => h)

/-- `q` is `p` with the nodes renamed. -/
def PRen (φ : Nat → Nat) (g : GraphI) (p q : Pairing) : Prop := ∀ v ∈ g.nodes, q.get (φ v) = (p.get v).map φ

theorem PRen.agree {φ ψ : Nat → Nat} {g : GraphI} {p q : Pairing} (hg : g.Lawful) (hp : p.Matches g) (h : PRen φ g p q)
    (e : ∀ v ∈ g.nodes, ψ v = φ v) : PRen ψ g p q := by
  intro v hv
  rw [e v hv, h v hv]
  cases c : p.get v with
  | none => rfl
  | some w => simp [e w (hp.mem_right hg c)]

theorem PRen.back {φ : Nat → Nat} {g h : GraphI} {p q : Pairing} (a : GraphI.Along φ g h) (hq : q.Matches h) (hpq : PRen φ g p q)
    {x' y' : Nat} (e : q.get x' = some y') : ∃ x y, x' = φ x ∧ y' = φ y ∧ p.get x = some y ∧ x ∈ g.nodes := by
  have hx := hq.mem_left a.lawful' e
  rw [a.nodes] at hx
  obtain ⟨x, hx0, hx1⟩ := List.mem_map.1 hx
  subst hx1
  rw [hpq x hx0] at e
  obtain ⟨y, ey, rfl⟩ := Option.map_eq_some_iff.1 e
  exact ⟨x, y, rfl, rfl, ey, hx0⟩

theorem PRen.flower {φ : Nat → Nat} {g h : GraphI} {p q : Pairing} (a : GraphI.Along φ g h) (hpq : PRen φ g p q)
    {B : List Nat} {base : Nat} (hF : Flower g p B base) : Flower h q (B.map φ) (φ base) := by
  have hφ := a.inj
  refine ⟨hF.nodup.map hφ, ?_, List.mem_map_of_mem hF.base_mem, ?_, ?_⟩
  · intro x hx
    obtain ⟨y, hy, rfl⟩ := List.mem_map.1 hx
    exact a.mem.2 (hF.sub y hy)
  · intro y e
    rw [hpq base (hF.sub _ hF.base_mem)] at e
    obtain ⟨z, ez, rfl⟩ := Option.map_eq_some_iff.1 e
    rw [List.mem_map_of_injective hφ]
    exact hF.base_out z ez
  · intro x hx hne
    obtain ⟨y, hy, rfl⟩ := List.mem_map.1 hx
    obtain ⟨z, hz, ez⟩ := hF.inner y hy (fun e => hne (by rw [e]))
    exact ⟨φ z, List.mem_map_of_mem hz, by rw [hpq y (hF.sub y hy), ez]; rfl⟩

theorem PRen.contract {φ : Nat → Nat} {g h g' h' : GraphI} {p q p' q' : Pairing} {b : Blossom} {base : Nat}
    (a : GraphI.Along φ g h) (hpq : PRen φ g p q) (hc : Con g p b base g' p')
    (hc' : Con h q (b.ren φ) (φ base) h' q') : PRen φ g' p' q' := by
  have hφ := a.inj
  intro v hv
  refine Option.ext (fun y' => ?_)
  rw [hc'.get', Option.map_eq_some_iff]
  constructor
  · rintro ⟨hne, x', c', e, e1, e2⟩
    obtain ⟨x, c, rfl, rfl, e', hx⟩ := hpq.back a hc'.matches_ e
    rw [kap_ren hφ] at e1 e2
    have e1 := hφ e1
    refine ⟨kap b c, (hc.get' _ _).2 ⟨?_, x, c, e', e1, rfl⟩, e2⟩
    rintro rfl; exact hne (by rw [← e2])
  · rintro ⟨y, ey, rfl⟩
    obtain ⟨hne, x, c, e, e1, e2⟩ := (hc.get' _ _).1 ey
    refine ⟨fun e => hne (hφ e), φ x, φ c, ?_, ?_, ?_⟩
    · rw [hpq x (hc.matches_.mem_left hc.lawful e), e]; rfl
    · rw [kap_ren hφ, e1]
    · rw [kap_ren hφ, e2]

/-- The search on a renamed graph finds the renamed path. -/
theorem augmentingPath_ren {pf : Platform} {ords ords' : Nat → HashOrder} (ho : ∀ i, (ords i).Valid) (ho' : ∀ i, (ords' i).Valid)
    (n : Nat) : ∀ {φ : Nat → Nat} {g h : GraphI} {p q : Pairing}, GraphI.Along φ g h → List.Forall₂ (EdgeRen φ) g.edges h.edges →
    g.edges.Nodup → h.edges.Nodup → p.Matches g → q.Matches h → PRen φ g p q → Headroom pf g → Headroom pf h →
    augmentingPath pf ords' n h q = (augmentingPath pf ords n g p).ren φ (Option.map (List.map φ)) := by
  induction n with
  | zero => intros; rfl
  | succ n ih =>
    intro φ g h p q ha hE he he' hp hq hpq hh hh'
    have hg := ha.lawful
    have hφ := ha.inj
    have hAP := (augmentingPath_spec (pf := pf) ho ho (n + 1) hg he hp hp rfl).1
    rcases augmentingPath_search_ren (pf := pf) (ha.but p) hp hq.symmetric hpq ho ho' n with
      ⟨h1, h2, h3⟩ | ⟨f, P, v, w, hEE, h1, h2⟩ | ⟨h1, h2, h3⟩
    · rw [h1, h2]; rfl
    · rw [h1] at hAP
      rw [h1, h2]
      have hF := hEE.forest
      have hv := hEE.even_v
      have hw := hEE.even_w
      have hv0 : P v ≠ [] := by intro e; rw [e] at hv; simp at hv
      unfold evenPath at hAP ⊢
      rw [Forest.path_ren hφ, hF.path] at *
      by_cases hn : n < (P v).length
      · rw [if_pos hn]; rfl
      rw [if_neg hn, if_neg hv0, Out.ok_bind] at hAP
      rw [if_neg hn, if_neg hv0, Out.ok_bind]
      simp only [Out.ren, Option.map_some, Out.ok_bind, List.getLast?_map] at hAP ⊢
      have hlast : ((P v).getLast?.map φ == (P w).getLast?.map φ) = ((P v).getLast? == (P w).getLast?) := by
        rw [Bool.eq_iff_iff, beq_iff_eq, beq_iff_eq, (Option.map_injective hφ).eq_iff]
      rw [hlast]
      by_cases hl : (P v).getLast? = (P w).getLast?
      · have hl' : ((P v).getLast? == (P w).getLast?) = true := by simpa using hl
        rw [if_pos hl'] at hAP ⊢
        rw [if_pos hl']
        obtain ⟨B, base, s, hB, hFd⟩ := hF.found hg hp hv hw hEE.adj hl
        -- the two ids
        have maxOf : ∀ (k : GraphI), k.nodes ≠ [] → Headroom pf k → 1 ≤ k.depth → ∃ mx, mx ∈ k.nodes ∧ (∀ x ∈ k.nodes, x ≤ mx) ∧
            maxNode k = .ok mx ∧ pf.succ mx = .ok (mx + 1) := by
          intro k hne hk hd
          obtain ⟨mx, hmx⟩ : ∃ m, k.nodes.max? = some m := by
            cases h : k.nodes.max? with
            | none => rw [List.max?_eq_none_iff] at h; exact absurd h hne
            | some m => exact ⟨m, rfl⟩
          have hmx' := List.max?_eq_some_iff.1 hmx
          refine ⟨mx, hmx'.1, hmx'.2, by unfold maxNode; rw [hmx], ?_⟩
          have := hk mx hmx'.1
          have : mx < pf.usizeMax := by omega
          simp [Platform.succ, this]
        have hbg : base ∈ g.nodes := hFd.flower.sub _ hFd.flower.base_mem
        have hbh : φ base ∈ h.nodes := ha.mem.2 hbg
        have hloops : h.loops = g.loops := by
          unfold GraphI.loops
          rw [ha.nodes, List.countP_map]
          refine List.countP_congr (fun x hx => ?_)
          show (h.nbr (φ x)).contains (φ x) = true ↔ _
          rw [ha.nbr x hx, contains_map hφ]
        have hdepth' : h.depth = g.depth := by
          unfold GraphI.depth; rw [hloops, ha.nodes, List.length_map]
        have hdepth : 1 ≤ g.depth := by
          unfold GraphI.depth
          rcases hFd.shrinks with h | h
          · have := (hFd.flower.nodup.subperm hFd.flower.sub).length_le
            omega
          · have : 0 < g.loops := by
              unfold GraphI.loops
              rw [List.countP_pos_iff]
              exact ⟨base, hbg, List.contains_iff_mem.2 (GraphI.mem_nbr.2 h)⟩
            omega
        obtain ⟨mx, m1, m2, m3, m4⟩ := maxOf g (List.ne_nil_of_mem hbg) hh hdepth
        obtain ⟨mx', m1', m2', m3', m4'⟩ := maxOf h (List.ne_nil_of_mem hbh) hh' (by omega)
        -- the names after the contraction
        obtain ⟨ψ, hψ, hψe⟩ := exists_injective (fun x => if x = mx + 1 then mx' + 1 else φ x) ((mx + 1) :: g.nodes) (by
          intro u hu v hv e
          have key : ∀ u ∈ g.nodes, u ≠ mx + 1 ∧ φ u ≠ mx' + 1 := by
            intro u hu
            have := m2 u hu
            have := m2' (φ u) (ha.mem.2 hu)
            omega
          rcases List.mem_cons.1 hu with rfl | hu <;> rcases List.mem_cons.1 hv with rfl | hv
          · rfl
          · have := key v hv; simp only [if_true, this.1, if_false] at e; exact absurd e.symm this.2
          · have := key u hu; simp only [if_true, this.1, if_false] at e; exact absurd e this.2
          · simp only [(key u hu).1, (key v hv).1, if_false] at e; exact hφ e)
        have hψid : ψ (mx + 1) = mx' + 1 := by rw [hψe _ List.mem_cons_self]; simp
        have hψφ : ∀ v ∈ g.nodes, ψ v = φ v := by
          intro v hv
          rw [hψe _ (List.mem_cons_of_mem _ hv)]
          have : v ≠ mx + 1 := by have := m2 v hv; omega
          simp [this]
        have ha' := ha.agree hψ hψφ
        have hE' := edgeRen_agree hg hψφ hE
        have hpq' := hpq.agree hg hp hψφ
        have hfree : FreeId g ⟨mx + 1, B⟩ := by
          intro v hv _ e
          have := m2 v hv
          simp only at e
          omega
        have hfree' : FreeId h ((⟨mx + 1, B⟩ : Blossom).ren ψ) := by
          intro v hv _ e
          have := m2' v hv
          unfold Blossom.ren at e
          simp only [hψid] at e
          omega
        obtain ⟨r, hr, hc⟩ := contract_ok (b := ⟨mx + 1, B⟩) (ho n) hg he hp hfree hFd.flower
        obtain ⟨r', hr', hc'⟩ := contract_ok (b := (⟨mx + 1, B⟩ : Blossom).ren ψ) (base := ψ base) (ho' n) ha.lawful' he' hq hfree'
          (hpq'.flower ha' hFd.flower)
        have hD := contractGraph_ren ha' hE' hr hr'
        have hd := Found.depth_lt (b := ⟨mx + 1, B⟩) hc hFd
        have headOf : Headroom pf r.toI := by
          intro v hv
          rcases hc.mem_nodes.1 hv with h1 | h1
          · have := hh mx m1
            simp only at h1
            omega
          · have := hh v h1.1
            omega
        have hd' : r'.toI.depth = r.toI.depth := by
          unfold GraphI.depth GraphI.loops
          rw [hD.along.nodes, List.length_map, List.countP_map]
          congr 1
          refine List.countP_congr (fun x hx => ?_)
          show (r'.toI.nbr (ψ x)).contains (ψ x) = true ↔ _
          rw [hD.along.nbr x hx, contains_map hψ]
        have headOf' : Headroom pf r'.toI := by
          intro v hv
          rw [hd']
          rcases hc'.mem_nodes.1 hv with h1 | h1
          · have := hh' mx' m1'
            unfold Blossom.ren at h1
            simp only [hψid] at h1
            omega
          · have := hh' v h1.1
            omega
        have hi := ih hD.along hD.edges hc.edges' hc'.edges' hc.matches' hc'.matches' (hpq'.contract ha' hc hc') headOf headOf'
        have hBφ : B.map φ = B.map ψ := (map_eq_of_agree hψφ hFd.flower.sub).symm
        have hB' : Blossom.newLoop ((P w).map φ) [] ((P v).map φ) = .ok (B.map ψ) := by
          have := newLoop_ren hφ (P w) (P v) []
          rw [hB, List.map_nil] at this
          rw [this, ← hBφ]; rfl
        have e1 : processBlossom pf (ords n) n (augmentingPath pf ords n) (P v) (P w) g p =
            (augmentingPath pf ords n r.toI ((⟨mx + 1, B⟩ : Blossom).contractPairing (ords n) p) >>= fun o =>
              match o with
              | some path => (⟨mx + 1, B⟩ : Blossom).lift n path g >>= fun lifted => .ok (some lifted)
              | none => .ok none) := by
          unfold processBlossom Blossom.new
          rw [m3, Out.ok_bind, m4, Out.ok_bind, hB, Out.ok_bind, Out.ok_bind, hr, Out.expect_ok, Out.ok_bind]
          congr 1
        have e2 : processBlossom pf (ords' n) n (augmentingPath pf ords' n) ((P v).map φ) ((P w).map φ) h q =
            (augmentingPath pf ords' n r'.toI (((⟨mx + 1, B⟩ : Blossom).ren ψ).contractPairing (ords' n) q) >>= fun o =>
              match o with
              | some path => ((⟨mx + 1, B⟩ : Blossom).ren ψ).lift n path h >>= fun lifted => .ok (some lifted)
              | none => .ok none) := by
          have hb : (⟨mx' + 1, B.map ψ⟩ : Blossom) = (⟨mx + 1, B⟩ : Blossom).ren ψ := by
            unfold Blossom.ren; rw [hψid]
          unfold processBlossom Blossom.new
          rw [m3', Out.ok_bind, m4', Out.ok_bind, hB', Out.ok_bind, Out.ok_bind, hb, hr', Out.expect_ok, Out.ok_bind]
          congr 1
        have e3 : processBlossom pf (ords' n) n (augmentingPath pf ords' n) ((P v).map φ) ((P w).map φ) h q =
            (processBlossom pf (ords n) n (augmentingPath pf ords n) (P v) (P w) g p).ren ψ (Option.map (List.map ψ)) := by
          rw [e1, e2, hi]
          refine Out.bind_ren _ (fun o => ?_)
          cases o with
          | none => rfl
          | some path =>
            simp only [Option.map_some]
            rw [lift_ren ha']
            exact Out.bind_ren _ (fun y => rfl)
        rw [e3]
        generalize processBlossom pf (ords n) n (augmentingPath pf ords n) (P v) (P w) g p = o at hAP ⊢
        match o, hAP with
        | .ok none, _ => rfl
        | .ok (some path), hx =>
          simp only [Out.ren, Option.map_some]
          rw [map_eq_of_agree hψφ hx.1.mem]
        | .err e, hx => exact hx.elim
        | .panic m, _ => rfl
        | .timeout, _ => rfl
      · have hl' : ((P v).getLast? == (P w).getLast?) = false := by simpa using hl
        rw [hl']
        simp only [Bool.false_eq_true, if_false, Out.ren, Option.map_some, List.map_append, List.map_reverse]
    · rw [h1, h2]; rfl

/-- Augmenting along the renamed path. -/
theorem PRen.augment {φ : Nat → Nat} {g h : GraphI} {p q : Pairing} (a : GraphI.Along φ g h) (hp : p.Matches g) (hq : q.Matches h)
    (hpq : PRen φ g p q) {path : List Nat} (hpath : IsPath g path) (he : path.length % 2 = 0) :
    ∃ p1 q1, p.augment path = .ok p1 ∧ q.augment (path.map φ) = .ok q1 ∧ p1.Matches g ∧ q1.Matches h ∧ PRen φ g p1 q1 := by
  have hφ := a.inj
  have hn := hpath.nodup
  have hn' : (path.map φ).Nodup := hn.map hφ
  have he' : (path.map φ).length % 2 = 0 := by rw [List.length_map]; exact he
  have hch : (path.map φ).IsChain h.Adj := by
    rw [List.isChain_map]
    exact hpath.chain.imp (fun x y hxy => a.adj.2 hxy)
  obtain ⟨p1, e1, s1, a1, b1⟩ := augment_spec hp.symmetric path hn he
  obtain ⟨q1, e2, s2, a2, b2⟩ := augment_spec hq.symmetric (path.map φ) hn' he'
  obtain ⟨p1', e1', m1⟩ := augment_matches a.lawful hp hn hpath.chain he
  obtain ⟨q1', e2', m2⟩ := augment_matches a.lawful' hq hn' hch he'
  rw [e1] at e1'; injection e1' with e1'; subst e1'
  rw [e2] at e2'; injection e2' with e2'; subst e2'
  refine ⟨p1, q1, e1, e2, m1, m2, fun x hxg => ?_⟩
  have tr : ∀ (i c : Nat), path[i]? = some c → (path.map φ)[i]? = some (φ c) := by
    intro i c e; rw [List.getElem?_map, e]; rfl
  by_cases hx : x ∈ path
  · obtain ⟨i, hi, rfl⟩ := List.getElem_of_mem hx
    rcases Nat.mod_two_eq_zero_or_one i with h0 | h0
    · have g1 : path[2 * (i / 2)]? = some path[i] := by
        rw [show 2 * (i / 2) = i by omega, List.getElem?_eq_getElem hi]
      have g2 : path[2 * (i / 2) + 1]? = some path[i + 1] := by
        rw [show 2 * (i / 2) + 1 = i + 1 by omega, List.getElem?_eq_getElem (by omega)]
      rw [a1 _ _ _ g1 g2, a2 _ _ _ (tr _ _ g1) (tr _ _ g2)]; rfl
    · obtain ⟨j, rfl⟩ : ∃ j, i = j + 1 := ⟨i - 1, by omega⟩
      have g1 : path[2 * (j / 2)]? = some path[j] := by
        rw [show 2 * (j / 2) = j by omega, List.getElem?_eq_getElem]
      have g2 : path[2 * (j / 2) + 1]? = some path[j + 1] := by
        rw [show 2 * (j / 2) + 1 = j + 1 by omega, List.getElem?_eq_getElem hi]
      rw [s1.get_get (a1 _ _ _ g1 g2), s2.get_get (a2 _ _ _ (tr _ _ g1) (tr _ _ g2))]; rfl
  · rw [b1 x hx, b2 (φ x) (fun hc => hx ((List.mem_map_of_injective hφ).1 hc)), hpq x hxg]
    cases p.get x with
    | none => rfl
    | some y =>
      by_cases hy : y ∈ path
      · simp [hy, List.mem_map_of_injective hφ]
      · simp [hy, List.mem_map_of_injective hφ]

/-- `maximum_matching` on a renamed graph ends in the renamed pairing. -/
theorem maximumMatching_ren {pf : Platform} {φ : Nat → Nat} {g h : GraphI} (ha : GraphI.Along φ g h)
    (hE : List.Forall₂ (EdgeRen φ) g.edges h.edges) (he : g.edges.Nodup) (he' : h.edges.Nodup) (hh : Headroom pf g)
    (hh' : Headroom pf h) (n : Nat) :
    ∀ {p q : Pairing} {ords ords' : List Bool → Nat → HashOrder}, p.Matches g → q.Matches h → PRen φ g p q →
    (∀ l i, (ords l i).Valid) → (∀ l i, (ords' l i).Valid) →
    (∃ p' q', maximumMatching pf n ords g p = .ok p' ∧ maximumMatching pf n ords' h q = .ok q' ∧ p'.Matches g ∧ q'.Matches h ∧
      PRen φ g p' q') ∨
    (∃ m, maximumMatching pf n ords g p = .panic m ∧ maximumMatching pf n ords' h q = .panic m) ∨
    (maximumMatching pf n ords g p = .timeout ∧ maximumMatching pf n ords' h q = .timeout) := by
  induction n with
  | zero => intros; exact .inr (.inr ⟨rfl, rfl⟩)
  | succ n ih =>
    intro p q ords ords' hp hq hpq ho ho'
    have h1 := (augmentingPath_spec (pf := pf) (ho []) (ho []) n ha.lawful he hp hp rfl).1
    have heq := augmentingPath_ren (pf := pf) (ho []) (ho' []) n ha hE he he' hp hq hpq hh hh'
    unfold maximumMatching
    rw [heq]
    generalize augmentingPath pf (ords []) n g p = o at h1 ⊢
    match o, h1 with
    | .ok none, h1 => exact .inl ⟨p, q, rfl, rfl, hp, hq, hpq⟩
    | .ok (some path), h1 =>
      obtain ⟨h1, -⟩ := h1
      simp only [Out.ren, Option.map_some]
      rw [Out.ok_bind, Out.ok_bind]
      simp only
      rcases Nat.mod_two_eq_zero_or_one path.length with h0 | h0
      · obtain ⟨p1, q1, e1, e2, m1, m1', r1⟩ := hpq.augment ha hp hq h1 h0
        rw [e1, e2, Out.ok_bind, Out.ok_bind]
        rcases ih m1 m1' r1 (fun l i => ho (false :: l) i) (fun l i => ho' (false :: l) i) with
          ⟨p2, q2, a1, a2, m2, m2', r2⟩ | ⟨m, a1, a2⟩ | ⟨a1, a2⟩
        · rw [a1, a2, Out.ok_bind, Out.ok_bind]
          exact ih m2 m2' r2 (fun l i => ho (true :: l) i) (fun l i => ho' (true :: l) i)
        · rw [a1, a2]; exact .inr (.inl ⟨m, rfl, rfl⟩)
        · rw [a1, a2]; exact .inr (.inr ⟨rfl, rfl⟩)
      · rw [augment_odd p path h0, augment_odd q (path.map φ) (by rw [List.length_map]; exact h0)]
        exact .inr (.inl ⟨_, rfl, rfl⟩)
    | .err e, h1 => exact h1.elim
    | .panic m, h1 => exact .inr (.inl ⟨m, rfl, rfl⟩)
    | .timeout, h1 => exact .inr (.inr ⟨rfl, rfl⟩)

end Gamma
