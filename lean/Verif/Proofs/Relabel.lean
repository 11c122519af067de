import Verif.Proofs.Forest
/-
Renaming the nodes of graphs, forests and markers by an injective function.
-/
namespace Gamma
open Pairing

/-- The ids of an error renamed. -/
def Error.ren (φ : Nat → Nat) : Error → Error
  | .missingNode v => .missingNode (φ v)
  | .duplicateNode v => .duplicateNode (φ v)
  | .missingEdge u v => .missingEdge (φ u) (φ v)
  | .duplicateEdge u v => .duplicateEdge (φ u) (φ v)

/-- An outcome with its value changed by `a` and the ids of its error renamed. -/
def Out.ren {α β : Type} (φ : Nat → Nat) (a : α → β) : Out α → Out β
  | .ok x => .ok (a x)
  | .err e => .err (e.ren φ)
  | .panic m => .panic m
  | .timeout => .timeout

theorem Out.bind_ren {α β γ δ : Type} {φ : Nat → Nat} {a : α → β} {c : γ → δ} (x : Out α) {k : α → Out γ} {k' : β → Out δ}
    (h : ∀ y, k' (a y) = (k y).ren φ c) : (x.ren φ a >>= k') = (x >>= k).ren φ c := by
  cases x with
  | ok y => exact h y
  | err e => rfl
  | panic m => rfl
  | timeout => rfl

theorem Out.expect_ren {α β : Type} {φ : Nat → Nat} {a : α → β} (x : Out α) (m : String) :
    (x.ren φ a).expect m = (x.expect m).ren φ a := by cases x <;> rfl

theorem contains_map {φ : Nat → Nat} (hφ : Function.Injective φ) (l : List Nat) (x : Nat) :
    (l.map φ).contains (φ x) = l.contains x := by
  rw [Bool.eq_iff_iff, List.contains_iff_mem, List.contains_iff_mem, List.mem_map_of_injective hφ]

namespace HMap
variable {β γ : Type} {φ : Nat → Nat} {a : β → γ}

/-- The map with its keys renamed, and its values changed by `a`. -/
def ren (φ : Nat → Nat) (a : β → γ) (m : HMap β) : HMap γ := List.map (fun e => (φ e.1, a e.2)) m

theorem get_ren (hφ : Function.Injective φ) (m : HMap β) (k : Nat) : HMap.get (ren φ a m) (φ k) = (HMap.get m k).map a := by
  unfold HMap.get ren
  induction m with
  | nil => rfl
  | cons e l ih =>
    obtain ⟨x, v⟩ := e
    simp only [List.map_cons, List.lookup_cons]
    by_cases h : k = x
    · subst h; simp
    · have h1 : (k == x) = false := by simpa using h
      have h2 : (φ k == φ x) = false := by simpa using fun e => h (hφ e)
      rw [h1, h2]; exact ih

theorem insert_ren (hφ : Function.Injective φ) (m : HMap β) (k : Nat) (v : β) :
    HMap.insert (ren φ a m) (φ k) (a v) = ren φ a (HMap.insert m k v) := by
  unfold HMap.insert HMap.remove ren
  rw [List.map_cons, List.filter_map]
  congr 2
  refine List.filter_congr (fun e _ => ?_)
  show (φ e.1 != φ k) = (e.1 != k)
  rw [Bool.eq_iff_iff, bne_iff_ne, bne_iff_ne, Ne, hφ.eq_iff]

end HMap

namespace Forest
variable {φ : Nat → Nat}

/-- The forest with its nodes renamed. -/
def ren (φ : Nat → Nat) (f : Forest) : Forest :=
  { parents := HMap.ren φ (fun e => ⟨e.parent.map φ, e.even⟩) f.parents, nodes := f.nodes.map φ }

theorem ren_id (f : Forest) : f.ren id = f := by
  unfold ren HMap.ren
  simp

theorem get_parents (hφ : Function.Injective φ) (f : Forest) (v : Nat) :
    HMap.get (f.ren φ).parents (φ v) = (HMap.get f.parents v).map (fun e => (⟨e.parent.map φ, e.even⟩ : Entry)) := by
  exact HMap.get_ren (a := fun e : Entry => (⟨e.parent.map φ, e.even⟩ : Entry)) hφ f.parents v

theorem addRoot_ren (hφ : Function.Injective φ) (f : Forest) (v : Nat) : (f.ren φ).addRoot (φ v) = (f.addRoot v).ren φ (ren φ) := by
  unfold addRoot
  rw [get_parents hφ]
  cases HMap.get f.parents v with
  | none =>
    simp only [Option.map_none, Out.ren, ren, List.map_append, List.map_cons, List.map_nil]
    congr 2
    exact HMap.insert_ren (a := fun e : Entry => (⟨e.parent.map φ, e.even⟩ : Entry)) hφ f.parents v ⟨none, true⟩
  | some e => rfl

theorem addEdge_ren (hφ : Function.Injective φ) (f : Forest) (u v : Nat) :
    (f.ren φ).addEdge (φ u) (φ v) = (f.addEdge u v).ren φ (ren φ) := by
  unfold addEdge
  rw [get_parents hφ, get_parents hφ]
  cases HMap.get f.parents u with
  | none => rfl
  | some e =>
    cases HMap.get f.parents v with
    | none =>
      simp only [Option.map_none, Option.map_some, Out.ren, ren, List.map_append, List.map_cons, List.map_nil]
      congr 2
      exact HMap.insert_ren (a := fun e : Entry => (⟨e.parent.map φ, e.even⟩ : Entry)) hφ f.parents v ⟨some u, !e.even⟩
    | some e' => rfl

theorem isEven_ren (hφ : Function.Injective φ) (f : Forest) (v : Nat) : (f.ren φ).isEven (φ v) = (f.isEven v).ren φ id := by
  unfold isEven
  rw [get_parents hφ]
  cases HMap.get f.parents v <;> rfl

theorem firstEven_ren (hφ : Function.Injective φ) (f : Forest) {pred pred' : Nat → Bool} (hp : ∀ x, pred' (φ x) = pred x)
    (l : List Nat) : (f.ren φ).firstEven pred' (l.map φ) = (f.firstEven pred l).ren φ (Option.map φ) := by
  induction l with
  | nil => rfl
  | cons x r ih =>
    simp only [List.map_cons, firstEven, isEven_ren hφ]
    refine Out.bind_ren _ (fun b => ?_)
    simp only [id, hp]
    split
    · rfl
    · exact ih

theorem pathLoop_ren (hφ : Function.Injective φ) (f : Forest) (n : Nat) : ∀ (o : Option Nat) (acc : List Nat),
    (f.ren φ).pathLoop n (o.map φ) (acc.map φ) = (f.pathLoop n o acc).ren φ (List.map φ) := by
  induction n with
  | zero => intros; rfl
  | succ n ih =>
    intro o acc
    cases o with
    | none => rfl
    | some id =>
      simp only [Option.map_some, pathLoop]
      rw [get_parents hφ]
      cases HMap.get f.parents id with
      | none => rfl
      | some e =>
        simp only [Option.map_some]
        rw [← ih, List.map_append]
        rfl

theorem path_ren (hφ : Function.Injective φ) (f : Forest) (n v : Nat) :
    (f.ren φ).path n (φ v) = (f.path n v).ren φ (Option.map (List.map φ)) := by
  unfold path
  rw [get_parents hφ]
  cases HMap.get f.parents v with
  | none => rfl
  | some e =>
    simp only [Option.map_some]
    have := pathLoop_ren hφ f n e.parent [v]
    simp only [List.map_cons, List.map_nil] at this
    rw [this]
    exact Out.bind_ren _ (fun y => rfl)

end Forest

/-- `h` is `g` with the nodes renamed by `φ`: the part a search looks at. -/
structure GraphI.Along (φ : Nat → Nat) (g h : GraphI) : Prop where
  inj : Function.Injective φ
  lawful : g.Lawful
  lawful' : h.Lawful
  nodes : h.nodes = g.nodes.map φ
  nbr : ∀ v ∈ g.nodes, h.nbr (φ v) = (g.nbr v).map φ

theorem GraphI.Along.refl {g : GraphI} (hg : g.Lawful) : GraphI.Along id g g :=
  ⟨Function.injective_id, hg, hg, by simp, by simp⟩

theorem GraphI.Along.mem {φ : Nat → Nat} {g h : GraphI} (a : GraphI.Along φ g h) {v : Nat} : φ v ∈ h.nodes ↔ v ∈ g.nodes := by
  rw [a.nodes, List.mem_map_of_injective a.inj]

theorem GraphI.Along.adj {φ : Nat → Nat} {g h : GraphI} (a : GraphI.Along φ g h) {u v : Nat} : h.Adj (φ u) (φ v) ↔ g.Adj u v := by
  constructor
  · intro hh
    have hu := a.mem.1 (a.lawful'.adj_src hh)
    have := GraphI.mem_nbr.2 hh
    rw [a.nbr u hu, List.mem_map_of_injective a.inj] at this
    exact GraphI.mem_nbr.1 this
  · intro hh
    have hu := a.lawful.adj_src hh
    refine GraphI.mem_nbr.1 ?_
    rw [a.nbr u hu, List.mem_map_of_injective a.inj]
    exact GraphI.mem_nbr.2 hh

theorem GraphI.Along.hasEdge {φ : Nat → Nat} {g h : GraphI} (a : GraphI.Along φ g h) (u v : Nat) :
    h.hasEdge (φ u) (φ v) = (g.hasEdge u v).ren φ id := by
  by_cases hu : u ∈ g.nodes
  · by_cases hv : v ∈ g.nodes
    · obtain ⟨b, e, hb⟩ := a.lawful.hasEdge_ok u v hu hv
      obtain ⟨b', e', hb'⟩ := a.lawful'.hasEdge_ok _ _ (a.mem.2 hu) (a.mem.2 hv)
      rw [e, e']
      have : b' = b := by rw [Bool.eq_iff_iff, hb, hb', a.adj]
      rw [this]; rfl
    · rw [a.lawful.hasEdge_err_right u v hu hv, a.lawful'.hasEdge_err_right _ _ (a.mem.2 hu) (fun h => hv (a.mem.1 h))]
      rfl
  · rw [a.lawful.hasEdge_err_left u v hu, a.lawful'.hasEdge_err_left _ _ (fun h => hu (a.mem.1 h))]
    rfl

end Gamma
