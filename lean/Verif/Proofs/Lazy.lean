import Verif.Proofs.AnyGraph
/-
Traversals are lazy: they ask for the neighbors of the nodes they have discovered, and of no others.
-/
namespace Gamma

section iter
variable {σ α : Type} {next next' : σ → Out (Option α × σ)}

/-- A trace is one of another iterator if the other makes the same calls. -/
theorem Trace.congr {s s' : σ} {l : List α} (t : Trace next s l s')
    (h : ∀ a ∈ l, ∀ x x', next x = .ok (some a, x') → next' x = .ok (some a, x')) : Trace next' s l s' := by
  induction t with
  | nil => exact .nil _
  | cons s s1 s2 a l hn _ ih =>
    exact .cons _ _ _ _ _ (h a (by simp) _ _ hn) (ih (fun b hb => h b (by simp [hb])))

/-- An iterator that never ends nor fails goes on for any number of calls. -/
theorem Trace.exists_of_progress (Inv : List α → σ → Prop)
    (step : ∀ l s, Inv l s → ∃ a s', next s = .ok (some a, s') ∧ Inv (l ++ [a]) s') (n : Nat) (l : List α) (s : σ)
    (h : Inv l s) : ∃ l' s', l'.length = n ∧ Trace next s l' s' ∧ Inv (l ++ l') s' := by
  induction n generalizing l s with
  | zero => exact ⟨[], s, rfl, .nil s, by simpa using h⟩
  | succ n ih =>
    obtain ⟨a, s1, h1, h2⟩ := step l s h
    obtain ⟨l', s', h3, t, h4⟩ := ih _ _ h2
    exact ⟨a :: l', s', by simp [h3], .cons _ _ _ _ _ h1 t, by simpa using h4⟩

theorem Trace.split {s s' : σ} {l1 l2 : List α} (t : Trace next s (l1 ++ l2) s') :
    ∃ s1, Trace next s l1 s1 ∧ Trace next s1 l2 s' := by
  induction l1 generalizing s with
  | nil => exact ⟨s, .nil s, t⟩
  | cons a l1 ih =>
    cases t with
    | cons _ s1 _ _ _ hn t =>
      obtain ⟨s2, t1, t2⟩ := ih t
      exact ⟨s2, .cons _ _ _ _ _ hn t1, t2⟩

end iter

variable {g h : GraphI}

theorem mem_discovered_of_new {root : Nat} {steps : List Step} {s : Step} (hs : s ∈ steps) (hc : s.cut = false) :
    s.tid ∈ discovered root steps := by
  unfold discovered
  refine List.mem_cons_of_mem _ (List.mem_map.2 ⟨s, List.mem_filter.2 ⟨hs, by simp [hc]⟩, rfl⟩)

namespace BreadthFirst

theorem begins_of_trace {root : Nat} {b b' : BreadthFirst} {steps : List Step} (hb : BreadthFirst.new g root = .ok b)
    (t : Trace (BreadthFirst.next g) b steps b') : BreadthFirst.Begins g root steps := ⟨b, hb, calls_trace t⟩

theorem new_congr {root : Nat} (hn : h.neighbors root = g.neighbors root) : BreadthFirst.new h root = BreadthFirst.new g root := by
  unfold BreadthFirst.new; rw [hn]

theorem next_congr {a : Step} (hn : a.cut = false → h.neighbors a.tid = g.neighbors a.tid) (x x' : BreadthFirst)
    (hx : BreadthFirst.next g x = .ok (some a, x')) : BreadthFirst.next h x = .ok (some a, x') := by
  unfold BreadthFirst.next at hx ⊢
  cases hq : x.queue with
  | nil => rw [hq] at hx; simp at hx
  | cons e rest =>
    obtain ⟨p, n⟩ := e
    rw [hq] at hx
    simp only at hx ⊢
    by_cases hv : x.nodes.contains n
    · rw [if_pos hv] at hx ⊢; exact hx
    · simp only [hv, Bool.false_eq_true, if_false] at hx ⊢
      have ha : a.cut = false ∧ a.tid = n := by
        rw [Out.bind_eq_ok] at hx
        obtain ⟨l, -, h2⟩ := hx
        simp at h2
        rw [← h2.1]; exact ⟨rfl, rfl⟩
      rw [show h.neighbors n = g.neighbors n by rw [← ha.2]; exact hn ha.1]
      exact hx

/-- The traversal asks for the neighbors of the discovered nodes only. -/
theorem begins_congr {root : Nat} {steps : List Step} (hn : ∀ v ∈ discovered root steps, h.neighbors v = g.neighbors v)
    (hb : BreadthFirst.Begins g root steps) : BreadthFirst.Begins h root steps := by
  obtain ⟨b, b', h1, t, -⟩ := hb.ainv
  refine begins_of_trace (b := b) (b' := b') ?_ (t.congr ?_)
  · rw [new_congr (hn root (by simp [discovered])), h1]
  · intro a ha x x' hx
    exact next_congr (fun hc => hn _ (mem_discovered_of_new ha hc)) x x' hx

theorem Run.begins_prefix {root : Nat} {l1 l2 : List Step} (hr : BreadthFirst.Run g root (l1 ++ l2)) :
    BreadthFirst.Begins g root l1 := by
  obtain ⟨b, b', h1, t, -⟩ := hr.ainv
  obtain ⟨s1, t1, -⟩ := t.split
  exact begins_of_trace h1 t1

end BreadthFirst

namespace DepthFirst

theorem begins_of_trace {root : Nat} {d d' : DepthFirst} {steps : List Step} (hd : DepthFirst.new g root = .ok d)
    (t : Trace (DepthFirst.next g) d steps d') : DepthFirst.Begins g root steps := ⟨d, hd, calls_trace t⟩

theorem new_congr {root : Nat} (hn : h.neighbors root = g.neighbors root) : DepthFirst.new h root = DepthFirst.new g root := by
  unfold DepthFirst.new; rw [hn]

theorem next_congr {a : Step} (hn : a.cut = false → h.neighbors a.tid = g.neighbors a.tid) (x x' : DepthFirst)
    (hx : DepthFirst.next g x = .ok (some a, x')) : DepthFirst.next h x = .ok (some a, x') := by
  unfold DepthFirst.next at hx ⊢
  cases hq : x.stack with
  | nil => rw [hq] at hx; simp at hx
  | cons e rest =>
    obtain ⟨p, n⟩ := e
    rw [hq] at hx
    simp only at hx ⊢
    by_cases hv : x.nodes.contains n
    · rw [if_pos hv] at hx ⊢; exact hx
    · simp only [hv, Bool.false_eq_true, if_false] at hx ⊢
      have ha : a.cut = false ∧ a.tid = n := by
        rw [Out.bind_eq_ok] at hx
        obtain ⟨l, -, h2⟩ := hx
        simp at h2
        rw [← h2.1]; exact ⟨rfl, rfl⟩
      rw [show h.neighbors n = g.neighbors n by rw [← ha.2]; exact hn ha.1]
      exact hx

/-- The traversal asks for the neighbors of the discovered nodes only. -/
theorem begins_congr {root : Nat} {steps : List Step} (hn : ∀ v ∈ discovered root steps, h.neighbors v = g.neighbors v)
    (hb : DepthFirst.Begins g root steps) : DepthFirst.Begins h root steps := by
  obtain ⟨b, b', h1, t, -⟩ := hb.winv
  refine begins_of_trace (d := b) (d' := b') ?_ (t.congr ?_)
  · rw [new_congr (hn root (by simp [discovered])), h1]
  · intro a ha x x' hx
    exact next_congr (fun hc => hn _ (mem_discovered_of_new ha hc)) x x' hx

end DepthFirst

/-! ### The part of a graph in which a set of nodes answers -/

open Classical in
/-- `g`, except that the nodes outside `P` have no neighbors. -/
noncomputable def GraphI.cutTo (g : GraphI) (P : Nat → Prop) : GraphI :=
  { g with neighbors := fun v => if P v then g.neighbors v else .ok [] }

theorem GraphI.cutTo_in {P : Nat → Prop} {v : Nat} (hv : P v) : (g.cutTo P).neighbors v = g.neighbors v := by
  simp [GraphI.cutTo, hv]

theorem GraphI.cutTo_out {P : Nat → Prop} {v : Nat} (hv : ¬ P v) : (g.cutTo P).neighbors v = .ok [] := by
  simp [GraphI.cutTo, hv]

theorem GraphI.cutTo_adj {P : Nat → Prop} {u v : Nat} : (g.cutTo P).Adj u v ↔ P u ∧ g.Adj u v := by
  by_cases hu : P u
  · simp only [GraphI.Adj, GraphI.cutTo_in hu, hu, true_and]
  · simp only [GraphI.Adj, GraphI.cutTo_out hu, hu, false_and, iff_false]
    rintro ⟨l, h1, h2⟩
    simp at h1; subst h1; simp at h2

theorem GraphI.cutTo_leadsIn {P : Nat → Prop} {u v n : Nat} (hl : (g.cutTo P).LeadsIn u n v) : g.LeadsIn u n v := by
  induction hl with
  | refl => exact .refl
  | step n v w _ ha ih => exact .step _ _ _ ih (GraphI.cutTo_adj.1 ha).2

/-- A way in the whole graph is a way in the part up to the first node outside. -/
theorem GraphI.leadsIn_cutTo {P : Nat → Prop} {u v n : Nat} (hl : g.LeadsIn u n v) :
    (g.cutTo P).LeadsIn u n v ∨ ∃ m w, m < n ∧ ¬ P w ∧ (g.cutTo P).LeadsIn u m w := by
  induction hl with
  | refl => exact .inl .refl
  | step n v w _ ha ih =>
    rcases ih with ih | ⟨m, x, h1, h2, h3⟩
    · by_cases hv : P v
      · exact .inl (.step _ _ _ ih (GraphI.cutTo_adj.2 ⟨hv, ha⟩))
      · exact .inr ⟨n, v, by omega, hv, ih⟩
    · exact .inr ⟨m, x, by omega, h2, h3⟩

theorem GraphI.cutTo_finite {P : Nat → Prop} {root : Nat} {L : List Nat} (hL : ∀ v, P v → (g.cutTo P).LeadsTo root v → v ∈ L) :
    ∃ L' : List Nat, ∀ v, (g.cutTo P).LeadsTo root v → v ∈ L' := by
  refine ⟨root :: L.flatMap g.nbr, fun v hv => ?_⟩
  cases hv with
  | refl => simp
  | tail h1 ha =>
    obtain ⟨h2, h3⟩ := GraphI.cutTo_adj.1 ha
    exact List.mem_cons_of_mem _ (List.mem_flatMap.2 ⟨_, hL _ h2 h1, GraphI.mem_nbr.2 h3⟩)

namespace BreadthFirst

/-- If the nodes in `P` are finitely many and answer, the traversal of the part ends. -/
theorem cutTo_run {P : Nat → Prop} {root : Nat} {L : List Nat} (hL : ∀ v, P v → (g.cutTo P).LeadsTo root v → v ∈ L)
    (hA : ∀ v, P v → ∃ l, g.neighbors v = .ok l) : ∃ steps, BreadthFirst.Run (g.cutTo P) root steps := by
  obtain ⟨L', hL'⟩ := GraphI.cutTo_finite hL
  have hall : ∀ v, ∃ l, (g.cutTo P).neighbors v = .ok l := by
    intro v
    by_cases hv : P v
    · rw [GraphI.cutTo_in hv]; exact hA v hv
    · exact ⟨[], GraphI.cutTo_out hv⟩
  obtain ⟨l, hl⟩ := hall root
  have hb : BreadthFirst.new (g.cutTo P) root = .ok ⟨[root], l.map (fun n => (root, n))⟩ := by
    unfold BreadthFirst.new; rw [hl]; rfl
  obtain ⟨st, b', t, hI, he | hs⟩ := BreadthFirst.run_or hb hL'
  · exact ⟨st, _, hb, endsAfter_of_trace t he⟩
  · obtain ⟨n, -, -, h3, -⟩ := hI.stuck hs
    obtain ⟨l, hl⟩ := hall n
    exact absurd hl (h3 l)

theorem trace_det {σ α : Type} {next : σ → Out (Option α × σ)} {s s1 s2 : σ} {l1 l2 : List α}
    (t1 : Trace next s l1 s1) (t2 : Trace next s l2 s2) : l1 <+: l2 ∨ l2 <+: l1 := by
  induction t1 generalizing l2 with
  | nil => exact .inl (List.nil_prefix)
  | cons s s' s'' a l hn _ ih =>
    cases t2 with
    | nil => exact .inr (List.nil_prefix)
    | cons _ s3 _ b l3 hn' t2 =>
      rw [hn] at hn'
      simp at hn'
      obtain ⟨rfl, rfl⟩ := hn'
      rcases ih t2 with h | h
      · exact .inl (by simpa using h)
      · exact .inr (by simpa using h)

/-- What has been yielded is a part of all that is yielded. -/
theorem Begins.prefix_run {root : Nat} {steps all : List Step} (hb : BreadthFirst.Begins g root steps)
    (hr : BreadthFirst.Run g root all) : steps <+: all := by
  obtain ⟨b, b', h1, t, -⟩ := hb.ainv
  obtain ⟨c, c', h2, t', -, hq⟩ := hr.ainv
  rw [h1] at h2
  simp at h2; subst h2
  obtain ⟨l, s', t'', e⟩ : ∃ l s', Trace (BreadthFirst.next g) b l s' ∧ l = all := ⟨all, c', t', rfl⟩
  rcases trace_det t t' with h | ⟨r, hr⟩
  · exact h
  · subst hr
    obtain ⟨s1, t1, t2⟩ := t.split
    cases t2 with
    | nil => simp
    | cons _ s2 _ a l2 hn _ =>
      exfalso
      have : s1 = c' := by
        have key : ∀ {s x y : BreadthFirst} {l : List Step}, Trace (BreadthFirst.next g) s l x → Trace (BreadthFirst.next g) s l y → x = y := by
          intro s x y l tx
          induction tx generalizing y with
          | nil => intro ty; cases ty; rfl
          | cons s s' s'' a l hn _ ih =>
            intro ty
            cases ty with
            | cons _ s3 _ _ _ hn' ty =>
              rw [hn] at hn'; simp at hn'; subst hn'; exact ih ty
        exact key t1 t'
      subst this
      simp [BreadthFirst.next, hq] at hn

/-- Levels are distances, however far the traversal went. -/
theorem Begins.hops {root : Nat} {steps : List Step} (hb : BreadthFirst.Begins g root steps) :
    (∀ s ∈ steps, s.cut = false → g.hops root s.tid = g.hops root s.sid + 1) ∧
    (discovered root steps).Pairwise (fun x y => g.hops root x ≤ g.hops root y) ∧
    ∀ v ∈ discovered root steps, ∀ u, g.LeadsTo root u → g.hops root u < g.hops root v → u ∈ discovered root steps := by
  obtain ⟨b, b', h1, t, hI⟩ := hb.ainv
  let P := fun v => v ∈ discovered root steps
  have hb' : BreadthFirst.Begins (g.cutTo P) root steps := begins_congr (fun v hv => GraphI.cutTo_in (P := P) hv) hb
  obtain ⟨all, hr⟩ := cutTo_run (g := g) (P := P) (root := root) (L := discovered root steps) (fun v hv _ => hv) hI.answered
  obtain ⟨post, rfl⟩ := hb'.prefix_run hr
  obtain ⟨c, c', -, -, hJ, hq⟩ := hr.ainv
  obtain ⟨e1, e2⟩ := hJ.level_eq_hops hq
  have hd : discovered root (steps ++ post) = discovered root steps ++ (post.filter (fun s => !s.cut)).map Step.tid := by
    simp [discovered]
  have hord : ∀ v ∈ discovered root steps, ∀ w, (g.cutTo P).LeadsTo root w → w ∉ discovered root steps →
      (g.cutTo P).hops root v ≤ (g.cutTo P).hops root w := by
    intro v hv w hw hn
    have hw' := (hJ.closed hq w).2 hw
    rw [hd, List.mem_append] at hw'
    rw [hd, List.pairwise_append] at e2
    exact e2.2.2 v hv w (hw'.resolve_left hn)
  have hreach : ∀ v ∈ discovered root steps, (g.cutTo P).LeadsTo root v := by
    intro v hv
    exact (hJ.closed hq v).1 (by rw [hd]; exact List.mem_append_left _ hv)
  have heq : ∀ v ∈ discovered root steps, (g.cutTo P).hops root v = g.hops root v := by
    intro v hv
    have h2 := GraphI.cutTo_leadsIn (GraphI.hops_spec (hreach v hv))
    have h3 := GraphI.hops_le h2
    refine Nat.le_antisymm ?_ h3
    rcases GraphI.leadsIn_cutTo (P := P) (GraphI.hops_spec (GraphI.leadsIn_leadsTo h2)) with h4 | ⟨m, w, h4, h5, h6⟩
    · exact GraphI.hops_le h4
    · have := hord v hv w (GraphI.leadsIn_leadsTo h6) h5
      have := GraphI.hops_le h6
      omega
  refine ⟨?_, ?_, ?_⟩
  · intro s hs hc
    have := e1 s (by simp [hs]) hc
    rw [heq _ (hI.inv.truth.tid_mem hs), heq _ (hI.inv.truth.sid_mem hs)] at this
    exact this
  · rw [hd, List.pairwise_append] at e2
    refine e2.1.imp_of_mem ?_
    intro x y hx hy hle
    rwa [heq x hx, heq y hy] at hle
  · intro v hv u hu hlt
    by_contra hn
    rcases GraphI.leadsIn_cutTo (P := P) (GraphI.hops_spec hu) with h4 | ⟨m, w, h4, h5, h6⟩
    · have := hord v hv u (GraphI.leadsIn_leadsTo h4) hn
      have := GraphI.hops_le h4
      have := heq v hv
      omega
    · have := hord v hv w (GraphI.leadsIn_leadsTo h6) h5
      have := GraphI.hops_le h6
      have := heq v hv
      omega

/-- The nodes within some number of steps of the root are finitely many if they answer. -/
theorem _root_.Gamma.GraphI.within_finite (g : GraphI) (root : Nat) (n : Nat) :
    ∃ L : List Nat, ∀ m v, m ≤ n → g.LeadsIn root m v → v ∈ L := by
  induction n with
  | zero =>
    refine ⟨[root], fun m v hm hl => ?_⟩
    cases hl with
    | refl => simp
    | step => omega
  | succ n ih =>
    obtain ⟨L, hL⟩ := ih
    refine ⟨root :: L.flatMap g.nbr, fun m v hm hl => ?_⟩
    cases hl with
    | refl => simp
    | step m u _ h1 ha =>
      exact List.mem_cons_of_mem _ (List.mem_flatMap.2 ⟨u, hL m u (by omega) h1, GraphI.mem_nbr.2 ha⟩)

/-- Breadth-first traversal reaches everything after finitely many steps. -/
theorem finds {root v : Nat} (hv : g.LeadsTo root v)
    (hA : ∀ u, g.LeadsTo root u → g.hops root u ≤ g.hops root v → ∃ l, g.neighbors u = .ok l) :
    ∃ steps, BreadthFirst.Begins g root steps ∧ v ∈ discovered root steps := by
  let P := fun u => g.LeadsTo root u ∧ g.hops root u ≤ g.hops root v
  obtain ⟨L, hL⟩ := g.within_finite root (g.hops root v)
  obtain ⟨all, hr⟩ := cutTo_run (g := g) (P := P) (root := root) (L := L)
    (fun u hu _ => hL _ u hu.2 (GraphI.hops_spec hu.1)) (fun u hu => hA u hu.1 hu.2)
  obtain ⟨c, c', -, -, hJ, hq⟩ := hr.ainv
  obtain ⟨-, e2⟩ := hJ.level_eq_hops hq
  -- the part leads to every node at the distance of `v`, in as many steps
  have hsame : ∀ u n, n ≤ g.hops root v → g.LeadsIn root n u → (g.cutTo P).LeadsIn root n u := by
    intro u n hn hu
    rcases GraphI.leadsIn_cutTo (P := P) hu with h4 | ⟨m, w, h4, h5, h6⟩
    · exact h4
    · have h7 := GraphI.cutTo_leadsIn h6
      exact absurd ⟨GraphI.leadsIn_leadsTo h7, by have := GraphI.hops_le h7; omega⟩ h5
  have hv' := hsame v _ (le_refl _) (GraphI.hops_spec hv)
  have hvd := (hJ.closed hq v).2 (GraphI.leadsIn_leadsTo hv')
  have hpre : ∃ l1 l2, all = l1 ++ l2 ∧ v ∈ discovered root l1 ∧ ∀ x ∈ discovered root l1, (g.cutTo P).hops root x ≤ (g.cutTo P).hops root v := by
    rcases List.mem_cons.1 hvd with rfl | hm
    · exact ⟨[], all, rfl, by simp [discovered], by simp [discovered]⟩
    · obtain ⟨s, hs, rfl⟩ := List.mem_map.1 hm
      obtain ⟨hs, hc⟩ := List.mem_filter.1 hs
      have hc : s.cut = false := by simpa using hc
      obtain ⟨l1, l2, rfl⟩ := List.append_of_mem hs
      refine ⟨l1 ++ [s], l2, by simp, by rw [discovered_new _ _ _ hc]; simp, ?_⟩
      intro x hx
      rw [discovered_new _ _ _ hc, List.mem_append] at hx
      rcases hx with hx | hx
      · have hd : discovered root (l1 ++ s :: l2) =
            discovered root l1 ++ s.tid :: (l2.filter (fun s => !s.cut)).map Step.tid := by
          simp [discovered, hc]
        rw [hd, List.pairwise_append] at e2
        exact e2.2.2 x hx s.tid (by simp)
      · simp at hx; subst hx; exact le_refl _
  obtain ⟨l1, l2, rfl, h1, h2⟩ := hpre
  have hb := hr.begins_prefix
  refine ⟨l1, begins_congr (g := g.cutTo P) (fun x hx => ?_) hb, h1⟩
  have hx1 : (g.cutTo P).LeadsTo root x :=
    (hJ.closed hq x).1 (by simp [discovered] at hx ⊢; rcases hx with h | ⟨a, h, h'⟩; exact .inl h; exact .inr (.inl ⟨a, h, h'⟩))
  have hx2 := GraphI.hops_spec hx1
  have hx3 := GraphI.cutTo_leadsIn hx2
  refine (GraphI.cutTo_in (P := P) ⟨GraphI.leadsIn_leadsTo hx3, ?_⟩).symm
  have := GraphI.hops_le hx3
  have := h2 x hx
  have := GraphI.hops_le hv'
  omega

/-- From a root that leads to infinitely many nodes, which all answer, the traversal never ends. -/
theorem goes_on {root : Nat} (hA : ∀ u, g.LeadsTo root u → ∃ l, g.neighbors u = .ok l)
    (hinf : ∀ L : List Nat, ∃ v, g.LeadsTo root v ∧ v ∉ L) (n : Nat) :
    ∃ steps, steps.length = n ∧ BreadthFirst.Begins g root steps := by
  obtain ⟨l, hl⟩ := hA root .refl
  have hb : BreadthFirst.new g root = .ok ⟨[root], l.map (fun n => (root, n))⟩ := by
    unfold BreadthFirst.new; rw [hl]; rfl
  obtain ⟨st, b', h1, t, -⟩ := Trace.exists_of_progress (next := BreadthFirst.next g) (AInv g root) (fun st b hI => by
    cases hq : b.queue with
    | nil =>
      obtain ⟨v, hv, hn⟩ := hinf (discovered root st)
      exact absurd ((hI.closed hq v).2 hv) hn
    | cons e rest =>
      obtain ⟨p, x⟩ := e
      by_cases hv : x ∈ b.nodes
      · exact ⟨_, _, (hI.inv.next_eq hq).1 hv, hI.cut hq hv⟩
      · have hm := hI.inv.mem_queue (e := (p, x)) (by rw [hq]; simp)
        obtain ⟨l, hl⟩ := hA x ((hI.leadsTo p hm.1).tail hm.2)
        exact ⟨_, _, (hI.inv.next_eq hq).2 hv l hl, hI.new hq hv hl⟩) n [] _ (new_ok hb)
  exact ⟨st, h1, begins_of_trace hb t⟩

end BreadthFirst
end Gamma
