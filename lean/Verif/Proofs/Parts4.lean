import Verif.Proofs.Parts3
/-
The search for an augmenting path looks at each part of a graph as if the rest were not there.
-/
namespace Gamma
open Pairing Blossom DefaultGraph

section
variable {pf : Platform} {S : Nat → Bool} {g g' : GraphI} {p p' q q' : Pairing} {b b' : Blossom} {base : Nat} {r r' : DefaultGraph}

theorem Blossom.Con.shrunk (h : Con g p b base g' p') : Shrunk g b g' :=
  ⟨h.lawful, h.free, h.flower.nodup, h.flower.sub, h.lawful', h.nodes', h.adj'⟩

/-- A lifted path is the path itself, or goes through the blossom. -/
theorem lift_side (h : Con g p b base g' p') (hcyc : Cyclic g b.path) {path l : List Nat} (hp : IsPath g' path) {n : Nat}
    (e : b.lift n path g = .ok l) : (b.id ∉ path ∧ l = path) ∨ (b.id ∈ path ∧ ∃ x ∈ l, x ∈ b.path) := by
  by_cases hid : b.id ∈ path
  · right
    refine ⟨hid, ?_⟩
    obtain ⟨left, right, rfl⟩ := List.append_of_mem hid
    obtain ⟨mid, e1, -, hne, hsub, -⟩ := lift_spec h.shrunk hcyc (List.ne_nil_of_mem h.flower.base_mem) hp
      (show b.path.length < n + b.path.length + 1 by omega)
    have e2 := (lift_le (g := g) (show n ≤ n + b.path.length + 1 by omega) b (left ++ b.id :: right)).eq e (by simp)
    rw [e1] at e2; cases e2
    obtain ⟨x, l, rfl⟩ := List.exists_cons_of_ne_nil hne
    exact ⟨x, by simp, hsub x (by simp)⟩
  · left
    refine ⟨hid, ?_⟩
    unfold lift at e
    rw [(List.findIdx?_eq_none_iff).2 (fun x hx => by
      have : x ≠ b.id := fun h => hid (h ▸ hx)
      simpa using this)] at e
    cases e; rfl

theorem newLoop_mem {right : List Nat} (left : List Nat) : ∀ {pre B : List Nat}, newLoop right pre left = .ok B →
    (∀ x ∈ pre, x ∈ B) ∧ ∀ v, left.head? = some v → v ∈ B := by
  induction left with
  | nil => intro pre B e; cases e
  | cons a left ih =>
    intro pre B e
    rw [newLoop] at e
    split at e
    · cases e
      exact ⟨fun x hx => by simp [hx], fun v hv => by simp at hv; simp [hv]⟩
    · obtain ⟨h1, -⟩ := ih e
      refine ⟨fun x hx => h1 x (by simp [hx]), fun v hv => ?_⟩
      simp at hv; subst hv
      exact h1 _ (by simp)

/-- What the part does, given what the graph does. -/
def PartOut (S : Nat → Bool) : Out (Option (List Nat)) → Out (Option (List Nat)) → Prop
  | .ok none, o => o = .ok none
  | .ok (some path), o => ((∀ x ∈ path, S x = true) ∧ o = .ok (some path)) ∨ ∀ x ∈ path, S x = false
  | _, _ => True

theorem Pairing.Sub.flower (hc : g.ClosedOn S) (hpq : Pairing.Sub S g p q) {B : List Nat} (hF : Flower g p B base)
    (hcyc : Cyclic g B) (hb : S base = true) : Flower (g.part S) q B base := by
  have hS : ∀ x ∈ B, S x = true := fun x hx => by rw [← chain_side hc hcyc.chain _ hF.base_mem _ hx]; exact hb
  refine ⟨hF.nodup, fun x hx => GraphI.part_mem.2 ⟨hF.sub x hx, hS x hx⟩, hF.base_mem, fun y e => ?_, fun x hx hne => ?_⟩
  · rw [hpq _ (hF.sub _ hF.base_mem) hb] at e
    exact hF.base_out y e
  · obtain ⟨y, hy, e⟩ := hF.inner x hx hne
    exact ⟨y, hy, by rw [hpq x (hF.sub x hx) (hS x hx)]; exact e⟩

theorem kap_part {ψ : Nat → Nat} (hbb : b'.path = b.path) (hid : ψ b.id = b'.id) (hψS : ∀ v ∈ (g.part S).nodes, ψ v = v) :
    ∀ x ∈ (g.part S).nodes, kap b' x = ψ (kap b x) := by
  intro x hx
  by_cases hxb : x ∈ b.path
  · rw [kap_in hxb, kap_in (by rw [hbb]; exact hxb), hid]
  · rw [kap_out hxb, kap_out (by rw [hbb]; exact hxb), hψS x hx]

/-- The pairing of the contracted graph, on the part. -/
theorem pren_in {ψ : Nat → Nat} (hψ : Function.Injective ψ) (hc : g.ClosedOn S) (hq : q.Matches (g.part S)) (hpq : Pairing.Sub S g p q)
    (hcon : Con g p b base r.toI p') (hcyc : Cyclic g b.path) (hcon' : Con (g.part S) q b' base r'.toI q') (hbb : b'.path = b.path)
    (hid : ψ b.id = b'.id) (hψS : ∀ v ∈ (g.part S).nodes, ψ v = v) {q0 : Pairing}
    (hq0 : ∀ v ∈ (r.toI.part (sideOf S b base)).nodes, q0.get v = p'.get v) :
    PRen ψ (r.toI.part (sideOf S b base)) q0 q' := by
  have hk := kap_part (S := S) (g := g) hbb hid hψS
  have hl := GraphI.part_lawful hcon.lawful hc
  intro v hv
  rw [hq0 v hv]
  refine Option.ext (fun y' => ?_)
  rw [hcon'.get', Option.map_eq_some_iff]
  constructor
  · rintro ⟨hne, a, c, e, e1, e2⟩
    have ha := hq.mem_left hl e
    have hcn := hq.mem_right hl e
    rw [hk a ha] at e1
    rw [hk c hcn] at e2
    have e1 := hψ e1
    have ha' := GraphI.part_mem.1 ha
    refine ⟨kap b c, (hcon.get' _ _).2 ⟨?_, a, c, ?_, e1, rfl⟩, e2⟩
    · rintro rfl; exact hne e2
    · rw [← hpq a ha'.1 ha'.2]; exact e
  · rintro ⟨y, ey, rfl⟩
    obtain ⟨hne, a, c, e, e1, e2⟩ := (hcon.get' _ _).1 ey
    have ha := hcon.matches_.mem_left hcon.lawful e
    have hcn := hcon.matches_.mem_right hcon.lawful e
    have hSa : S a = true := by
      rw [← sideOf_kap hc hcon hcyc ha, e1]; exact (GraphI.part_mem.1 hv).2
    have hSc : S c = true := by rw [← hc a c (hcon.matches_.adj' e)]; exact hSa
    refine ⟨fun e => hne (hψ e), a, c, ?_, ?_, ?_⟩
    · rw [hpq a ha hSa]; exact e
    · rw [hk a (GraphI.part_mem.2 ⟨ha, hSa⟩), e1]
    · rw [hk c (GraphI.part_mem.2 ⟨hcn, hSc⟩), e2]

theorem pren_out (hc : g.ClosedOn S) (hpq : Pairing.Sub S g p q) (hcon : Con g p b base r.toI p') (hcyc : Cyclic g b.path)
    (hb : S base = false) {q0 : Pairing} (hq0 : ∀ v ∈ (r.toI.part (sideOf S b base)).nodes, q0.get v = p'.get v) :
    PRen _root_.id (r.toI.part (sideOf S b base)) q0 q := by
  have hout : ∀ x ∈ b.path, S x = false := fun x hx => by
    rw [← chain_side hc hcyc.chain _ hcon.flower.base_mem _ hx]; exact hb
  intro v hv
  obtain ⟨hv1, hv2⟩ := GraphI.part_mem.1 hv
  have hne : v ≠ b.id := by rintro rfl; rw [sideOf_id, hb] at hv2; cases hv2
  rw [sideOf_ne hne] at hv2
  have hvg : v ∈ g.nodes := ((hcon.mem_nodes.1 hv1).resolve_left hne).1
  have hvb : v ∉ b.path := fun h => by rw [hout v h] at hv2; cases hv2
  rw [hq0 v hv, Option.map_id, _root_.id, _root_.id, hpq v hvg hv2]
  refine Option.ext (fun y => ?_)
  rw [hcon.get']
  constructor
  · intro e
    have hy : S y = true := by rw [← hc v y (hcon.matches_.adj' e)]; exact hv2
    refine ⟨(hcon.matches_.symmetric.mate_mate v y (mate_eq_ok.2 e)).1, v, y, e, kap_out hvb, kap_out (fun h => ?_)⟩
    rw [hout y h] at hy; cases hy
  · rintro ⟨-, a, c, e, e1, e2⟩
    have : a = v := by
      by_cases ha : a ∈ b.path
      · rw [kap_in ha] at e1; exact absurd e1.symm hne
      · rw [kap_out ha] at e1; exact e1
    subst this
    have hy : S c = true := by rw [← hc a c (hcon.matches_.adj' e)]; exact hv2
    rw [kap_out (fun h => by rw [hout c h] at hy; cases hy)] at e2
    rw [e, e2]

theorem maxOf {k : GraphI} (hne : k.nodes ≠ []) (hk : Headroom pf k) (hd : 1 ≤ k.depth) : ∃ mx, mx ∈ k.nodes ∧ (∀ x ∈ k.nodes, x ≤ mx) ∧
    maxNode k = .ok mx ∧ pf.succ mx = .ok (mx + 1) := by
  obtain ⟨mx, hmx⟩ : ∃ m, k.nodes.max? = some m := by
    cases h : k.nodes.max? with
    | none => rw [List.max?_eq_none_iff] at h; exact absurd h hne
    | some m => exact ⟨m, rfl⟩
  have hmx' := List.max?_eq_some_iff.1 hmx
  refine ⟨mx, hmx'.1, hmx'.2, by unfold maxNode; rw [hmx], ?_⟩
  have := hk mx hmx'.1
  have : mx < pf.usizeMax := by omega
  simp [Platform.succ, this]

theorem Flower.depth_pos {B : List Nat} (hF : Flower g p B base) (hs : 3 ≤ B.length ∨ g.Adj base base) : 1 ≤ g.depth := by
  unfold GraphI.depth
  rcases hs with h | h
  · have := (hF.nodup.subperm hF.sub).length_le
    omega
  · have : 0 < g.loops := by
      unfold GraphI.loops
      rw [List.countP_pos_iff]
      exact ⟨base, hF.sub _ hF.base_mem, List.contains_iff_mem.2 (GraphI.mem_nbr.2 h)⟩
    omega

theorem Blossom.Con.depth_lt (hc : Con g p b base g' p') (hodd : b.path.length % 2 = 1) (hs : 3 ≤ b.path.length ∨ g.Adj base base) :
    g'.depth < g.depth := by
  have h1 := hc.loops_le
  have h2 := hc.length_nodes
  unfold GraphI.depth
  rcases hs with h4 | h4
  · omega
  · have : 0 < b.path.countP (fun v => (g.nbr v).contains v) := by
      rw [List.countP_pos_iff]
      exact ⟨base, hc.flower.base_mem, List.contains_iff_mem.2 (GraphI.mem_nbr.2 h4)⟩
    omega

/-- What follows from contracting a blossom: room for the ids that are left. -/
theorem Blossom.Con.headroom {mx : Nat} (hc : Con g p ⟨mx + 1, b.path⟩ base g' p') (hd : g'.depth < g.depth) (hm : mx ∈ g.nodes)
    (hh : Headroom pf g) : Headroom pf g' := by
  intro v hv
  rcases hc.mem_nodes.1 hv with h1 | h1
  · have := hh mx hm
    simp only at h1
    omega
  · have := hh v h1.1
    omega

theorem processBlossom_found {ord : HashOrder} {n mx : Nat} {rec : GraphI → Pairing → Out (Option (List Nat))} {left right B : List Nat}
    (m3 : maxNode g = .ok mx) (m4 : pf.succ mx = .ok (mx + 1)) (hB : newLoop right [] left = .ok B)
    (hr : (⟨mx + 1, B⟩ : Blossom).contractGraph g = .ok r) :
    processBlossom pf ord n rec left right g p = (rec r.toI ((⟨mx + 1, B⟩ : Blossom).contractPairing ord p) >>= fun o =>
      match o with
      | some path => (⟨mx + 1, B⟩ : Blossom).lift n path g >>= fun lifted => .ok (some lifted)
      | none => .ok none) := by
  unfold processBlossom Blossom.new
  rw [m3, Out.ok_bind, m4, Out.ok_bind, hB, Out.ok_bind, Out.ok_bind, hr, Out.expect_ok, Out.ok_bind]
  congr 1

end

/-- The search on a part. -/
theorem augmentingPath_part {pf : Platform} (n : Nat) : ∀ {S : Nat → Bool} {g : GraphI} {p q : Pairing}, g.Lawful → g.InEdgeOrder →
    g.edges.Nodup → g.ClosedOn S → p.Matches g → q.Matches (g.part S) → Pairing.Sub S g p q → Headroom pf g →
    PartOut S (augmentingPath pf (fun _ => _root_.id) n g p) (augmentingPath pf (fun _ => _root_.id) n (g.part S) q) := by
  induction n with
  | zero => intros; trivial
  | succ n ih =>
    intro S g p q hg ho he hc hp hq hpq hh
    have hs := GraphI.part_sub hg hc
    have hAP := (augmentingPath_spec (pf := pf) (ords := fun _ => _root_.id) (ords' := fun _ => _root_.id) (fun _ => HashOrder.id_valid)
      (fun _ => HashOrder.id_valid) (n + 1) hg he hp hp rfl).1
    rcases apTrace_part hs hp hq hpq HashOrder.id_valid HashOrder.id_valid n with ⟨h1, h2⟩ | ⟨f, P, v, w, hE, h1, h2⟩ | h1
    · rw [augmentingPath_eq_trace, augmentingPath_eq_trace, h1, h2]; rfl
    · have hF := hE.forest
      have hv := hE.even_v
      have hw := hE.even_w
      have hv0 : P v ≠ [] := by intro e; rw [e] at hv; simp at hv
      rw [augmentingPath_eq_trace, h1, Out.ok_bind] at hAP
      rw [augmentingPath_eq_trace (g := g), h1, Out.ok_bind]
      simp only at hAP ⊢
      unfold evenPath at hAP ⊢
      rw [hF.path] at hAP ⊢
      by_cases hn : n < (P v).length
      · rw [if_pos hn]; trivial
      rw [if_neg hn, if_neg hv0, Out.ok_bind] at hAP ⊢
      simp only at hAP ⊢
      -- the search on the part, if the edge is in it
      have hpart : S v = true → augmentingPath pf (fun _ => _root_.id) (n + 1) (g.part S) q =
          (if (P v).getLast? == (P w).getLast? then
            processBlossom pf _root_.id n (augmentingPath pf (fun _ => _root_.id) n) (P v) (P w) (g.part S) q
          else .ok (some ((P v).reverse ++ P w))) := by
        intro hS
        obtain ⟨f', hf', h2⟩ := h2 hS
        rw [augmentingPath_eq_trace, h2, Out.ok_bind]
        simp only
        unfold evenPath
        rw [(hF.part hs hp hpq hf').path, PS_in hS, if_neg hn, if_neg hv0, Out.ok_bind]
      by_cases hl : (P v).getLast? = (P w).getLast?
      · have hl' : ((P v).getLast? == (P w).getLast?) = true := by simpa using hl
        rw [if_pos hl'] at hAP ⊢
        simp only [hl', if_true] at hpart
        obtain ⟨B, base, s, hB, hFd⟩ := hF.found hg hp hv hw hE.adj hl
        have hcyc := hFd.cyclic
        have hvB : v ∈ B := (newLoop_mem _ hB).2 v (by obtain ⟨l, e⟩ := hF.head hv0; rw [e]; rfl)
        have hSv : S v = S base := chain_side hc hcyc.chain _ hvB _ hFd.flower.base_mem
        have hbg : base ∈ g.nodes := hFd.flower.sub _ hFd.flower.base_mem
        obtain ⟨mx, m1, m2, m3, m4⟩ := maxOf (List.ne_nil_of_mem hbg) hh (hFd.flower.depth_pos hFd.shrinks)
        have hfree : FreeId g ⟨mx + 1, B⟩ := by
          intro v hv _ e
          have := m2 v hv
          simp only at e
          omega
        obtain ⟨r, hr, hcon⟩ := contract_ok (b := ⟨mx + 1, B⟩) HashOrder.id_valid hg he hp hfree hFd.flower
        have hd := hcon.depth_lt hFd.odd hFd.shrinks
        have headr : Headroom pf r.toI := Blossom.Con.headroom (b := ⟨mx + 1, B⟩) hcon hd m1 hh
        rw [processBlossom_found m3 m4 hB hr] at hAP ⊢
        have hor := (contractGraph_edges hr).1
        have hc' := closed_con hc hcon hcyc
        have hl0 := GraphI.part_lawful hcon.lawful' hc'
        -- the pairing of the contracted graph on the part
        have hq0 := Pairing.within_matches (q := (⟨mx + 1, B⟩ : Blossom).contractPairing _root_.id p) hl0 hcon.matches'.symmetric (by
          intro x hx y e
          exact (GraphI.part_adj hcon.lawful').2 ⟨hcon.matches'.adj x y e, (GraphI.part_mem.1 hx).2⟩)
        have hget0 : ∀ x ∈ (r.toI.part (sideOf S ⟨mx + 1, B⟩ base)).nodes,
            (((⟨mx + 1, B⟩ : Blossom).contractPairing _root_.id p).within (r.toI.part (sideOf S ⟨mx + 1, B⟩ base)).nodes).get x =
              ((⟨mx + 1, B⟩ : Blossom).contractPairing _root_.id p).get x := by
          intro x hx
          rw [get_within, if_pos hx]
        have hi := ih hcon.lawful' hor hcon.edges' hc' hcon.matches' hq0.1
          (fun x hx hS => hget0 x (GraphI.part_mem.2 ⟨hx, hS⟩)) headr
        have hAPr := (augmentingPath_spec (pf := pf) (ords := fun _ => _root_.id) (ords' := fun _ => _root_.id) (fun _ => HashOrder.id_valid)
          (fun _ => HashOrder.id_valid) n hcon.lawful' hcon.edges' hcon.matches' hcon.matches' rfl).1
        generalize ((⟨mx + 1, B⟩ : Blossom).contractPairing _root_.id p).within (r.toI.part (sideOf S ⟨mx + 1, B⟩ base)).nodes = q0 at *
        have nd0 : (r.toI.part (sideOf S ⟨mx + 1, B⟩ base)).edges.Nodup := hcon.edges'.filter _
        have headr0 : Headroom pf (r.toI.part (sideOf S ⟨mx + 1, B⟩ base)) := GraphI.part_headroom headr
        -- a lifted path is on one side
        have side : ∀ l, IsPath g l → ∀ x ∈ l, ∀ y ∈ l, S x = S y := fun l hl => chain_side hc hl.chain
        cases hb : S base with
        | true =>
          have hFl' := hpq.flower hc hFd.flower hcyc hb
          have hsh : 3 ≤ B.length ∨ (g.part S).Adj base base := hFd.shrinks.imp_right (fun h => (GraphI.part_adj hg).2 ⟨h, hb⟩)
          have hh' : Headroom pf (g.part S) := GraphI.part_headroom hh
          have hlp := GraphI.part_lawful hg hc
          have he' : (g.part S).edges.Nodup := he.filter _
          obtain ⟨mx', m1', m2', m3', m4'⟩ := maxOf (List.ne_nil_of_mem (hFl'.sub _ hFl'.base_mem)) hh' (hFl'.depth_pos hsh)
          have hfree' : FreeId (g.part S) ⟨mx' + 1, B⟩ := by
            intro v hv _ e
            have := m2' v hv
            simp only at e
            omega
          obtain ⟨r', hr', hcon'⟩ := contract_ok (b := ⟨mx' + 1, B⟩) HashOrder.id_valid hlp he' hq hfree' hFl'
          have hd' := hcon'.depth_lt hFd.odd hsh
          have headr' : Headroom pf r'.toI := Blossom.Con.headroom (b := ⟨mx' + 1, B⟩) hcon' hd' m1' hh'
          obtain ⟨ψ, hψ, hψe⟩ := exists_injective (fun x => if x = mx + 1 then mx' + 1 else x) ((mx + 1) :: (g.part S).nodes) (by
            intro u hu v hv e
            have key : ∀ u ∈ (g.part S).nodes, u ≠ mx + 1 ∧ u ≠ mx' + 1 := by
              intro u hu
              have := m2 u (GraphI.part_mem.1 hu).1
              have := m2' u hu
              omega
            rcases List.mem_cons.1 hu with rfl | hu <;> rcases List.mem_cons.1 hv with rfl | hv
            · rfl
            · have := key v hv; simp only [if_true, this.1, if_false] at e; exact absurd e.symm this.2
            · have := key u hu; simp only [if_true, this.1, if_false] at e; exact absurd e this.2
            · simpa only [(key u hu).1, (key v hv).1, if_false] using e)
          have hψid : ψ (mx + 1) = mx' + 1 := by rw [hψe _ List.mem_cons_self]; simp
          have hψS : ∀ v ∈ (g.part S).nodes, ψ v = v := by
            intro v hv
            rw [hψe _ (List.mem_cons_of_mem _ hv)]
            have : v ≠ mx + 1 := by have := m2 v (GraphI.part_mem.1 hv).1; omega
            simp [this]
          obtain ⟨hA, hEE⟩ := part_con_in (b := ⟨mx + 1, B⟩) (b' := ⟨mx' + 1, B⟩) hψ hc hcon hcyc hr hb hcon' hr' rfl hψid hψS
          have hren := augmentingPath_ren (pf := pf) (ords := fun _ => _root_.id) (ords' := fun _ => _root_.id) (fun _ => HashOrder.id_valid)
            (fun _ => HashOrder.id_valid) n hA hEE nd0 hcon'.edges' hq0.1 hcon'.matches'
            (pren_in (b := ⟨mx + 1, B⟩) (b' := ⟨mx' + 1, B⟩) hψ hc hq hpq hcon hcyc hcon' rfl hψid hψS hget0) headr0 headr'
          rw [hpart (by rw [hSv, hb]), processBlossom_found m3' m4' hB hr', hren]
          have hBS : ∀ x ∈ B, x ∈ (g.part S).nodes := hFl'.sub
          generalize augmentingPath pf (fun _ => _root_.id) n r.toI ((⟨mx + 1, B⟩ : Blossom).contractPairing _root_.id p) = o at *
          match o, hi, hAPr with
          | .ok none, hi, _ => rw [show augmentingPath pf (fun _ => _root_.id) n (r.toI.part (sideOf S ⟨mx + 1, B⟩ base)) q0 = .ok none from hi]; rfl
          | .ok (some path), hi, hAPr =>
            rw [Out.ok_bind] at hAP ⊢
            simp only at hAP ⊢
            rcases hi with ⟨hin, hi⟩ | hout
            · rw [hi]
              simp only [Out.ren, Option.map_some, Out.ok_bind]
              have hself : GraphI.Along ψ (g.part S) (g.part S) := (GraphI.Along.refl hlp).agree hψ (by simpa using hψS)
              have hbr : (⟨mx' + 1, B⟩ : Blossom) = (⟨mx + 1, B⟩ : Blossom).ren ψ := by
                unfold Blossom.ren
                simp only [hψid]
                congr 1
                rw [map_eq_of_agree (φ := _root_.id) hψS hBS, List.map_id]
              have hcg : (⟨mx + 1, B⟩ : Blossom).lift n path g = (⟨mx + 1, B⟩ : Blossom).lift n path (g.part S) := by
                refine lift_congr (T := fun x => x ∈ (g.part S).nodes) (fun u v hu hv => (hs.hasEdge hu hv).symm) hBS n hAPr.1.nodup ?_
                intro x hx hne
                have h3 := hin x hx
                rw [sideOf_ne hne] at h3
                exact GraphI.part_mem.2 ⟨((hcon.mem_nodes.1 (hAPr.1.mem x hx)).resolve_left hne).1, h3⟩
              rw [hbr, lift_ren hself, ← hcg]
              cases hlift : (⟨mx + 1, B⟩ : Blossom).lift n path g with
              | ok l =>
                rw [hlift, Out.ok_bind] at hAP
                have hlp' : IsPath g l := hAP.1
                simp only [Out.ren, Out.ok_bind]
                left
                have hall : ∀ x ∈ l, S x = true := by
                  rcases lift_side hcon hcyc hAPr.1 hlift with ⟨h3, rfl⟩ | ⟨h3, x, hx, hxB⟩
                  · intro x hx
                    rw [← hin x hx, sideOf_ne]
                    rintro rfl; exact h3 hx
                  · intro y hy
                    rw [side l hlp' y hy x hx]
                    exact (GraphI.part_mem.1 (hBS x hxB)).2
                refine ⟨hall, ?_⟩
                rw [map_eq_of_agree (φ := _root_.id) hψS (fun x hx => GraphI.part_mem.2 ⟨hlp'.mem x hx, hall x hx⟩), List.map_id]
              | err e => trivial
              | panic m => trivial
              | timeout => trivial
            · cases hlift : (⟨mx + 1, B⟩ : Blossom).lift n path g with
              | ok l =>
                rcases lift_side hcon hcyc hAPr.1 hlift with ⟨h3, rfl⟩ | ⟨h3, x, hx, hxB⟩
                · right
                  intro x hx
                  rw [← hout x hx, sideOf_ne]
                  rintro rfl; exact h3 hx
                · have := hout _ h3
                  rw [sideOf_id, hb] at this; cases this
              | err e => trivial
              | panic m => trivial
              | timeout => trivial
          | .err e, _, _ => trivial
          | .panic m, _, _ => trivial
          | .timeout, _, _ => trivial
        | false =>
          obtain ⟨hA, hEE⟩ := part_con_out hc ho he hcon hcyc hr hb
          have hren := augmentingPath_ren (pf := pf) (ords := fun _ => _root_.id) (ords' := fun _ => _root_.id) (fun _ => HashOrder.id_valid)
            (fun _ => HashOrder.id_valid) n hA hEE nd0 (he.filter _) hq0.1 hq (pren_out hc hpq hcon hcyc hb hget0) headr0
            (GraphI.part_headroom hh)
          have hle := augmentingPath_le (pf := pf) (ord := _root_.id) (show n ≤ n + 1 by omega) (g.part S) q
          generalize augmentingPath pf (fun _ => _root_.id) n r.toI ((⟨mx + 1, B⟩ : Blossom).contractPairing _root_.id p) = o at *
          match o, hi, hAPr with
          | .ok none, hi, _ =>
            rw [show augmentingPath pf (fun _ => _root_.id) n (r.toI.part (sideOf S ⟨mx + 1, B⟩ base)) q0 = .ok none from hi] at hren
            exact hle.eq hren (by simp [Out.ren])
          | .ok (some path), hi, hAPr =>
            rw [Out.ok_bind] at hAP ⊢
            simp only at hAP ⊢
            cases hlift : (⟨mx + 1, B⟩ : Blossom).lift n path g with
            | ok l =>
              rw [hlift, Out.ok_bind] at hAP
              have hlp' : IsPath g l := hAP.1
              rw [Out.ok_bind]
              have hls := lift_side hcon hcyc hAPr.1 hlift
              rcases hi with ⟨hin, hi⟩ | hout
              · rcases hls with ⟨h3, rfl⟩ | ⟨h3, x, hx, hxB⟩
                · left
                  rw [hi] at hren
                  refine ⟨fun x hx => ?_, ?_⟩
                  · rw [← hin x hx, sideOf_ne]
                    rintro rfl; exact h3 hx
                  · have := hle.eq hren (by simp [Out.ren])
                    rw [this]; simp [Out.ren]
                · have := hin _ h3
                  rw [sideOf_id, hb] at this; cases this
              · right
                rcases hls with ⟨h3, rfl⟩ | ⟨h3, x, hx, hxB⟩
                · intro x hx
                  rw [← hout x hx, sideOf_ne]
                  rintro rfl; exact h3 hx
                · intro y hy
                  rw [side l hlp' y hy x hx, chain_side hc hcyc.chain _ hxB _ hFd.flower.base_mem, hb]
            | err e => trivial
            | panic m => trivial
            | timeout => trivial
          | .err e, _, _ => trivial
          | .panic m, _, _ => trivial
          | .timeout, _, _ => trivial
      · have hl' : ((P v).getLast? == (P w).getLast?) = false := by simpa using hl
        simp only [hl', Bool.false_eq_true, if_false] at hpart ⊢
        obtain ⟨a1, a2⟩ := hF.augmenting hg hp hv hw hE.adj hl
        have hv' : v ∈ (P v).reverse ++ P w := by
          obtain ⟨l, e⟩ := hF.head hv0
          rw [e]; simp
        cases hS : S v with
        | true => exact .inl ⟨fun x hx => by rw [chain_side hc a2.chain x hx v hv', hS], hpart hS⟩
        | false => exact .inr (fun x hx => by rw [chain_side hc a2.chain x hx v hv', hS])
    · rw [augmentingPath_eq_trace (g := g), h1]; trivial

end Gamma
