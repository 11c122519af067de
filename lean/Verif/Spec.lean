import Verif.Model.Matching
import Mathlib.Combinatorics.SimpleGraph.Acyclic
import Mathlib.Combinatorics.SimpleGraph.Metric
import Mathlib.Combinatorics.SimpleGraph.Coloring.Vertex
import Mathlib.Combinatorics.SimpleGraph.Connectivity.Finite
import Mathlib.Combinatorics.SimpleGraph.VertexCover
/-
The specification vocabulary used in the property theorems.  Nothing here looks inside the
implementation: a graph is described by the answers it gives through the `Graph` trait, and
graph-theoretic notions (reachability, distance, acyclicity, colourability) are Mathlib's.
-/
namespace Gamma

/-- `v` is yielded by `neighbors(u)`. -/
def GraphI.Adj (g : GraphI) (u v : Nat) : Prop := ∃ l, g.neighbors u = .ok l ∧ v ∈ l

/-- The list `neighbors(v)` yields (empty if it returns an error). -/
def GraphI.nbr (g : GraphI) (v : Nat) : List Nat :=
  match g.neighbors v with
  | .ok l => l
  | _ => []

/-- The simple graph (Mathlib's notion) denoted by a `Graph`: two distinct ids are adjacent when one
is listed as a neighbor of the other. -/
def GraphI.simple (g : GraphI) : SimpleGraph Nat := SimpleGraph.fromRel g.Adj

/-- No node is its own neighbor. -/
def GraphI.Loopless (g : GraphI) : Prop := ∀ v, ¬ g.Adj v v

/-- No node is listed twice as its own neighbor (a self-loop made by `add_edge(v, v)` is listed twice, one
converted from an adjacency list once). -/
def GraphI.NoDoubleLoop (g : GraphI) : Prop := ∀ v, (g.nbr v).count v ≤ 1

/-- The contract of the `Graph` trait (doc comments of /repo/src/graph/graph.rs: "an unweighted,
undirected graph"), phrased on the trait's answers only.  Self-loops are allowed, and nothing is
required of how a self-loop shows up in `edges()` or how often it is listed as a neighbor. -/
structure GraphI.Lawful (g : GraphI) : Prop where
  nodes_nodup : g.nodes.Nodup
  isEmpty_eq : g.isEmpty = g.nodes.isEmpty
  order_eq : g.order = g.nodes.length
  size_eq : g.size = g.edges.length
  hasNode_iff : ∀ v, g.hasNode v = true ↔ v ∈ g.nodes
  neighbors_ok : ∀ v ∈ g.nodes, ∃ l, g.neighbors v = .ok l
  neighbors_err : ∀ v, v ∉ g.nodes → g.neighbors v = .err (.missingNode v)
  degree_eq : ∀ v, g.degree v = (g.neighbors v >>= fun l => .ok l.length)
  adj_symm : ∀ u v, g.Adj u v → g.Adj v u
  adj_mem : ∀ u v, g.Adj u v → v ∈ g.nodes
  neighbor_once : ∀ u v l, g.neighbors u = .ok l → u ≠ v → l.count v ≤ 1
  hasEdge_ok : ∀ u v, u ∈ g.nodes → v ∈ g.nodes → ∃ b, g.hasEdge u v = .ok b ∧ (b = true ↔ g.Adj u v)
  hasEdge_err_left : ∀ u v, u ∉ g.nodes → g.hasEdge u v = .err (.missingNode u)
  hasEdge_err_right : ∀ u v, u ∈ g.nodes → v ∉ g.nodes → g.hasEdge u v = .err (.missingNode v)
  edges_adj : ∀ u v, (u, v) ∈ g.edges → g.Adj u v
  adj_edges : ∀ u v, u ≠ v → g.Adj u v → (u, v) ∈ g.edges ∨ (v, u) ∈ g.edges
  edges_once : ∀ u v, u ≠ v → g.edges.count (u, v) + g.edges.count (v, u) ≤ 1

/-! ### Histories of `DefaultGraph` -/

/-- A `DefaultGraph` a program can hold: built by a constructor and then changed by any number of
`add_node` / `add_edge` calls, successful or not.  (`TryFrom<DepthFirst>` goes through `new`,
`add_node` and `add_edge` only; `reachable_tryFromDfs` shows its results are reachable too.) -/
inductive DefaultGraph.Reachable : DefaultGraph → Prop
  | new : Reachable .new
  | fromAdjacency (adj : List (List Nat)) (g : DefaultGraph) :
      DefaultGraph.tryFromAdjacency adj = .ok g → Reachable g
  | fromEdges (es : List (Nat × Nat)) (g : DefaultGraph) :
      DefaultGraph.tryFromEdges es = .ok g → Reachable g
  | addNode (g : DefaultGraph) (id : Nat) : Reachable g → Reachable (g.addNode id).1
  | addEdge (g : DefaultGraph) (sid tid : Nat) : Reachable g → Reachable (g.addEdge sid tid).1

/-- As `Reachable`, but no adjacency list that was converted had a self-loop (a row listing its own
index). -/
inductive DefaultGraph.ReachableNoAdjLoop : DefaultGraph → Prop
  | new : ReachableNoAdjLoop .new
  | fromAdjacency (adj : List (List Nat)) (g : DefaultGraph) :
      (∀ (i : Nat) (row : List Nat), adj[i]? = some row → i ∉ row) →
      DefaultGraph.tryFromAdjacency adj = .ok g → ReachableNoAdjLoop g
  | fromEdges (es : List (Nat × Nat)) (g : DefaultGraph) :
      DefaultGraph.tryFromEdges es = .ok g → ReachableNoAdjLoop g
  | addNode (g : DefaultGraph) (id : Nat) :
      ReachableNoAdjLoop g → ReachableNoAdjLoop (g.addNode id).1
  | addEdge (g : DefaultGraph) (sid tid : Nat) :
      ReachableNoAdjLoop g → ReachableNoAdjLoop (g.addEdge sid tid).1

/-! ### Specification of the adjacency conversion -/

/-- The defect the conversion reports for entry `t` of row `s`, when `rest` are the later entries of
that row: out of range; else repeated later in the row; else not mirrored in row `t`. -/
def EntryDefect (adj : List (List Nat)) (s t : Nat) (rest : List Nat) : Error → Prop
  | .missingNode x => x = t ∧ adj.length ≤ t
  | .duplicateEdge a b => a = s ∧ b = t ∧ t < adj.length ∧ t ∈ rest
  | .missingEdge a b =>
      a = t ∧ b = s ∧ t < adj.length ∧ t ∉ rest ∧ ∀ r, adj[t]? = some r → s ∉ r
  | .duplicateNode _ => False

/-- `e` is the defect of the first defective entry of `adj` in row-major order. -/
def FirstDefect (adj : List (List Nat)) (e : Error) : Prop :=
  ∃ (s : Nat) (pre : List Nat) (t : Nat) (rest : List Nat),
    adj[s]? = some (pre ++ t :: rest) ∧ EntryDefect adj s t rest e ∧
    (∀ (s' : Nat) (pre' : List Nat) (t' : Nat) (rest' : List Nat) (e' : Error), s' < s →
      adj[s']? = some (pre' ++ t' :: rest') → ¬ EntryDefect adj s' t' rest' e') ∧
    (∀ (pre' : List Nat) (t' : Nat) (mid : List Nat) (e' : Error), pre = pre' ++ t' :: mid →
      ¬ EntryDefect adj s t' (mid ++ t :: rest) e')

/-- A valid adjacency list: entries are row indices, no row repeats an entry, and the relation is
symmetric. -/
structure ValidAdjacency (adj : List (List Nat)) : Prop where
  inRange : ∀ (i : Nat) (row : List Nat), adj[i]? = some row → ∀ t ∈ row, t < adj.length
  noRepeat : ∀ (i : Nat) (row : List Nat), adj[i]? = some row → row.Nodup
  symmetric : ∀ (i : Nat) (row : List Nat), adj[i]? = some row → ∀ t ∈ row, ∀ row',
    adj[t]? = some row' → i ∈ row'

/-- The edges contributed by row `i`: the pairs `(i, t)` with `i < t`, in row order. -/
def rowEdges (i : Nat) (row : List Nat) : List (Nat × Nat) :=
  (row.filter (fun t => decide (i < t))).map (fun t => (i, t))

/-! ### Specification: logs of operations -/

/-- A mutating call on a `DefaultGraph`. -/
inductive GraphOp where
  | node (id : Nat)
  | edge (sid tid : Nat)
  deriving DecidableEq, Repr

/-- Two edges join the same two nodes, in either direction. -/
def SameEdge (e f : Nat × Nat) : Prop := (e.1 = f.1 ∧ e.2 = f.2) ∨ (e.1 = f.2 ∧ e.2 = f.1)

instance (e f : Nat × Nat) : Decidable (SameEdge e f) := by unfold SameEdge; infer_instance

/-- The abstract effect of a call: the sequences of nodes and edges added so far. -/
def GraphOp.log (s : List Nat × List (Nat × Nat)) : GraphOp → List Nat × List (Nat × Nat)
  | .node id => if id ∈ s.1 then s else (s.1 ++ [id], s.2)
  | .edge a b =>
    if a ∈ s.1 ∧ b ∈ s.1 ∧ ∀ e ∈ s.2, ¬ SameEdge e (a, b) then (s.1, s.2 ++ [(a, b)]) else s

/-- The other endpoints of the edges of `es` at `v`, in order (a self-loop counts twice). -/
def incident (v : Nat) (es : List (Nat × Nat)) : List Nat :=
  es.flatMap (fun e => (if v = e.1 then [e.2] else []) ++ (if v = e.2 then [e.1] else []))

/-- Performing a call on a graph (its `Result` discarded). -/
def DefaultGraph.perform (g : DefaultGraph) : GraphOp → DefaultGraph
  | .node id => (g.addNode id).1
  | .edge a b => (g.addEdge a b).1

/-- The node ids of an edge list in order of appearance. -/
def endpoints (es : List (Nat × Nat)) : List Nat := es.flatMap (fun e => [e.1, e.2])

/-! ### Traversals -/

/-- The nodes discovered when a traversal from `root` has yielded `steps`: the root and the targets
of the non-cut steps. -/
def discovered (root : Nat) (steps : List Step) : List Nat :=
  root :: (steps.filter (fun s => !s.cut)).map Step.tid

/-- The number of steps that join `u` and `v`, in either direction. -/
def joinCount (u v : Nat) (steps : List Step) : Nat :=
  steps.countP (fun s => decide ((s.sid = u ∧ s.tid = v) ∨ (s.sid = v ∧ s.tid = u)))

/-- `u` is an ancestor of `v`, or `v` itself, in the tree of the discovery (non-cut) steps. -/
def Ancestor (steps : List Step) : Nat → Nat → Prop :=
  Relation.ReflTransGen (fun a b => ∃ s ∈ steps, s.cut = false ∧ s.sid = a ∧ s.tid = b)

/-- Running an iterator to its end: from state `s`, whatever the budget (if large enough), it yields
exactly `items` and no panic. -/
def Yields {σ α : Type} (next : σ → Out (Option α × σ)) (s : σ) (items : List α) : Prop :=
  ∃ N, ∀ fuel, N ≤ fuel → collect next fuel s = .ok items

/-- The first `n` calls of `next` on an iterator: what they return (`some` item or `None`). -/
def calls {σ α : Type} (next : σ → Out (Option α × σ)) : Nat → σ → Out (List (Option α))
  | 0, _ => .ok []
  | n + 1, s => next s >>= fun r => calls next n r.2 >>= fun os => .ok (r.1 :: os)

/-- The iterator after `n` calls of `next`. -/
def afterCalls {σ α : Type} (next : σ → Out (Option α × σ)) : Nat → σ → Out σ
  | 0, s => .ok s
  | n + 1, s => next s >>= fun r => afterCalls next n r.2

/-- The iterator, from state `s`, yields `items` and then `None` for ever, and never panics. -/
def EndsAfter {σ α : Type} (next : σ → Out (Option α × σ)) (s : σ) (items : List α) : Prop :=
  ∀ n, calls next n s = .ok ((items.take n).map some ++ List.replicate (n - items.length) none)

/-- `BreadthFirst::new(g, root)` is `Ok`, and the iterator it returns yields exactly `steps`, then `None` for
ever, without a panic. -/
def BreadthFirst.Run (g : GraphI) (root : Nat) (steps : List Step) : Prop :=
  ∃ b, BreadthFirst.new g root = .ok b ∧ EndsAfter (BreadthFirst.next g) b steps

/-- `DepthFirst::new(g, root)` is `Ok`, and the iterator it returns yields exactly `steps`, then `None` for
ever, without a panic. -/
def DepthFirst.Run (g : GraphI) (root : Nat) (steps : List Step) : Prop :=
  ∃ d, DepthFirst.new g root = .ok d ∧ EndsAfter (DepthFirst.next g) d steps

/-- `d` is the traversal `DepthFirst::new(g, root)` after `n` calls of `next`. -/
def DepthFirst.After (g : GraphI) (root n : Nat) (d : DepthFirst) : Prop :=
  ∃ d0, DepthFirst.new g root = .ok d0 ∧ afterCalls (DepthFirst.next g) n d0 = .ok d

/-- The ends of the step `t`, which comes after the steps `pre`, are among `first` and the nodes discovered in `pre` (but
the target need not if `t` discovers it). -/
def Step.Grounded (first : Nat) (pre : List Step) (t : Step) : Prop :=
  t.sid ∈ discovered first pre ∧ (t.cut = true → t.tid ∈ discovered first pre)

/-- The step with its ends renamed. -/
def Step.rename (f : Nat → Nat) (s : Step) : Step := ⟨f s.sid, f s.tid, s.cut⟩

/-- `h` is `g` with the nodes renamed by `f`: different nodes get different names, `nodes()` and `neighbors()` list the
renamed nodes in the same order. -/
structure GraphI.Renamed (f : Nat → Nat) (g h : GraphI) : Prop where
  inj : ∀ u ∈ g.nodes, ∀ v ∈ g.nodes, f u = f v → u = v
  nodes : h.nodes = g.nodes.map f
  neighbors : ∀ v ∈ g.nodes, ∀ l, g.neighbors v = .ok l → h.neighbors (f v) = .ok (l.map f)

/-- `c'` is `c` with the nodes renamed by `f`, and the edges too, in the same order and direction. -/
def SameComp (f : Nat → Nat) (c c' : DefaultGraph) : Prop :=
  GraphI.Renamed f c.toI c'.toI ∧ c'.edges = c.edges.map (fun e => (f e.1, f e.2))

/-- The edge `e'` is the edge `e` with its ends renamed, in either direction. -/
def RenamedEdge (f : Nat → Nat) (e e' : Nat × Nat) : Prop := e' = (f e.1, f e.2) ∨ e' = (f e.2, f e.1)

/-- The call `o'` is the call `o` with other ids, and perhaps the ends of the edge exchanged. -/
inductive RenamedOp (f : Nat → Nat) : (o o' : GraphOp) → Prop
  | node (v : Nat) : RenamedOp f (.node v) (.node (f v))
  | edge (s t : Nat) : RenamedOp f (.edge s t) (.edge (f s) (f t))
  | flipped (s t : Nat) : RenamedOp f (.edge s t) (.edge (f t) (f s))

/-- The ids in a call. -/
def GraphOp.ids : GraphOp → List Nat
  | .node v => [v]
  | .edge s t => [s, t]

/-- No step from a node to itself occurs twice. -/
def LoopsOnce (steps : List Step) : Prop := ∀ v, (steps.map (fun s => (s.sid, s.tid))).count (v, v) ≤ 1

/-- No discovery step joins `u` and `n`. -/
def NonTree (st : List Step) (u n : Nat) : Prop :=
  ∀ s ∈ st, s.cut = false → ¬ ((s.sid = u ∧ s.tid = n) ∨ (s.sid = n ∧ s.tid = u))

/-- When the steps so far are `pre` and the next step is the discovery `s`, the edge from `u` (already discovered)
to `v` (not reported so far) is forgotten: the newly discovered node is adjacent to `u` without having been
discovered from it, or it is `v` and is adjacent to an already discovered node it was not discovered from. -/
def DepthFirst.Drops (g : GraphI) (root : Nat) (pre : List Step) (s : Step) (u v : Nat) : Prop :=
  s.cut = false ∧ u ∈ discovered root pre ∧ (∀ t ∈ pre, ¬ (t.sid = u ∧ t.tid = v)) ∧ ¬ (s.sid = u ∧ s.tid = v) ∧
    ((s.sid ≠ u ∧ g.Adj s.tid u) ∨ (s.tid = v ∧ ∃ w ∈ discovered root pre, w ≠ s.sid ∧ g.Adj s.tid w))

/-- At some point of the traversal `steps` the edge from `u` to `v` is forgotten. -/
def DepthFirst.Dropped (g : GraphI) (root : Nat) (steps : List Step) (u v : Nat) : Prop :=
  ∃ pre s post, steps = pre ++ s :: post ∧ DepthFirst.Drops g root pre s u v

/-- When the steps so far are `pre` and the next step is the discovery `s`, the newly discovered node is adjacent to the
already discovered `u`, which it was not discovered from. -/
def DepthFirst.Closes (g : GraphI) (root : Nat) (pre : List Step) (s : Step) (u : Nat) : Prop :=
  s.cut = false ∧ u ∈ discovered root pre ∧ s.sid ≠ u ∧ g.Adj s.tid u

/-- How often `u` is listed as its own neighbor, counting only up to the first neighbor that was discovered before the steps
`pre` ended and is not `p` (from which `u` is discovered next). -/
def DepthFirst.loopsBefore (g : GraphI) (root : Nat) (pre : List Step) (p u : Nat) : Nat :=
  ((g.nbr u).takeWhile (fun w => w == p || !(discovered root pre).contains w)).count u

/-- After the steps `pre` the edge from `u` to `v` is still to be reported: `u` is discovered, `v` is another
neighbor of `u` that `u` was not discovered from, and the edge was neither reported nor forgotten. -/
structure DepthFirst.Waiting (g : GraphI) (root : Nat) (pre : List Step) (u v : Nat) : Prop where
  discovered : u ∈ discovered root pre
  ne : u ≠ v
  adj : g.Adj u v
  not_parent : ∀ s ∈ pre, s.cut = false → ¬ (s.sid = v ∧ s.tid = u)
  not_reported : ∀ s ∈ pre, ¬ (s.sid = u ∧ s.tid = v)
  not_dropped : ¬ DepthFirst.Dropped g root pre u v

/-- `x` has three different neighbors (itself not counted). -/
def Deg3 (g : GraphI) (x : Nat) : Prop :=
  ∃ a b c, a ≠ b ∧ a ≠ c ∧ b ≠ c ∧ g.simple.Adj x a ∧ g.simple.Adj x b ∧ g.simple.Adj x c

/-- `x` has four different neighbors (itself not counted). -/
def Deg4 (g : GraphI) (x : Nat) : Prop :=
  ∃ a b c d, a ≠ b ∧ a ≠ c ∧ a ≠ d ∧ b ≠ c ∧ b ≠ d ∧ c ≠ d ∧
    g.simple.Adj x a ∧ g.simple.Adj x b ∧ g.simple.Adj x c ∧ g.simple.Adj x d

/-- `x` lies on a cycle (of at least three nodes; Mathlib's notion). -/
def OnCycle (g : GraphI) (x : Nat) : Prop := ∃ c : g.simple.Walk x x, c.IsCycle

/-- `a` and `b` are joined by a path that does not pass through `x`. -/
def JoinedAround (g : GraphI) (x a b : Nat) : Prop := ∃ w : g.simple.Walk a b, x ∉ w.support

/-- A place where a depth-first traversal from `root` may forget the edge from `x` to its neighbor `b`: it may come to `x`
from the neighbor `p`, go on to the neighbor `a`, and from there reach the neighbor `z`. -/
structure DepthFirst.Fork (g : GraphI) (root x p a z b : Nat) : Prop where
  nodup : [p, a, z, b].Nodup
  adj : ∀ y ∈ [p, a, z, b], g.simple.Adj x y
  paths : ∃ (w : g.simple.Walk root p) (w' : g.simple.Walk a z), x ∉ w.support ∧ x ∉ w'.support ∧ b ∉ w'.support ∧
    w.support.Disjoint w'.support

/-- A condition on the component of `root` under which a depth-first traversal from `root` misses nothing.  If two neighbors
of the root are joined around it, then so are all.  And at a fork at another node the neighbor `b` is joined to `a` around that
node, but the root is not.  (Sufficient for the first: the root lies on no cycle, or has at most two neighbors, or is not a cut
vertex.  For the second: the other nodes on cycles have at most three neighbors.  See `C24_tame_classes_partial`.) -/
structure DepthFirst.Tame (g : GraphI) (root : Nat) : Prop where
  others : ∀ x, x ≠ root → ∀ p a z b, DepthFirst.Fork g root x p a z b →
    JoinedAround g x a b ∧ ¬ JoinedAround g x a root
  root : ∀ a z b, [a, z, b].Nodup → (∀ y ∈ [a, z, b], g.simple.Adj root y) →
    JoinedAround g root a z → JoinedAround g root a b

/-- `h` is `g` with the neighbors of each node listed in another order. -/
structure GraphI.Reordered (g h : GraphI) : Prop where
  nodes : h.nodes = g.nodes
  edges : h.edges = g.edges
  neighbors : ∀ v ∈ g.nodes, ∀ l, g.neighbors v = .ok l → ∃ l', h.neighbors v = .ok l' ∧ l'.Perm l

/-- A place where `b` may be lost: either two neighbors `a` and `z` of the root are joined around the root and a third, `b`, is
not joined to `a` around the root; or there is a fork at another node `x`, where `b` is joined around `x` neither to `a` nor
to the root. -/
def DepthFirst.Loses (g : GraphI) (root b : Nat) : Prop :=
  (∃ a z, [a, z, b].Nodup ∧ (∀ y ∈ [a, z, b], g.simple.Adj root y) ∧ JoinedAround g root a z ∧ ¬ JoinedAround g root a b) ∨
  (∃ x p a z, x ≠ root ∧ DepthFirst.Fork g root x p a z b ∧ ¬ JoinedAround g x a b ∧ ¬ JoinedAround g x root b)

/-- However a graph that compares equal to `g` was built, a depth-first traversal from `root` discovers everything connected. -/
def DepthFirst.AlwaysComplete (g : DefaultGraph) (root : Nat) : Prop :=
  ∀ h : DefaultGraph, h.ReachableNoAdjLoop → g.eq h = .ok true → ∀ steps, DepthFirst.Run h.toI root steps →
    ∀ v, g.toI.simple.Reachable root v → v ∈ discovered root steps

/-! ### Any implementation of `Graph`

Nothing is assumed of `g` here: `neighbors` may be asymmetric (a directed graph), repeat itself, or fail. -/

/-- Following `neighbors` leads from `u` to `v`, in any number of steps. -/
def GraphI.LeadsTo (g : GraphI) : Nat → Nat → Prop := Relation.ReflTransGen g.Adj

/-- Following `neighbors` leads from `u` to `v` in `n` steps. -/
inductive GraphI.LeadsIn (g : GraphI) (u : Nat) : Nat → Nat → Prop
  | refl : LeadsIn g u 0 u
  | step (n v w : Nat) : LeadsIn g u n v → g.Adj v w → LeadsIn g u (n + 1) w

/-- The smallest number of steps in which following `neighbors` leads from `u` to `v` (0 if it does not). -/
noncomputable def GraphI.hops (g : GraphI) (u v : Nat) : Nat := sInf {n | g.LeadsIn u n v}

/-- A cycle, followed in the direction of `neighbors`: at least three different nodes, each of which has the next one among its
neighbors, and the last one the first. -/
structure DirectedCycle (g : GraphI) (C : List Nat) : Prop where
  nodup : C.Nodup
  long : 3 ≤ C.length
  chain : C.IsChain g.Adj
  closes : ∀ a b, C.head? = some a → C.getLast? = some b → g.Adj b a

/-- A directed graph: the nodes are different, each of them has neighbors, which are nodes and are listed once (a node may be
listed as its own neighbor any number of times), but neighbors need not be mutual.  Nothing is said of the other methods, nor of
`neighbors` elsewhere. -/
structure GraphI.Directed (g : GraphI) : Prop where
  nodes_nodup : g.nodes.Nodup
  neighbors_ok : ∀ v ∈ g.nodes, ∃ l, g.neighbors v = .ok l
  adj_mem : ∀ u v, u ∈ g.nodes → g.Adj u v → v ∈ g.nodes
  neighbor_once : ∀ u v l, u ∈ g.nodes → g.neighbors u = .ok l → u ≠ v → l.count v ≤ 1

/-- `BreadthFirst::new(g, root)` is `Ok`, and the first calls of `next` yield `steps` (there may be more to come). -/
def BreadthFirst.Begins (g : GraphI) (root : Nat) (steps : List Step) : Prop :=
  ∃ b, BreadthFirst.new g root = .ok b ∧ calls (BreadthFirst.next g) steps.length b = .ok (steps.map some)

/-- `DepthFirst::new(g, root)` is `Ok`, and the first calls of `next` yield `steps` (there may be more to come). -/
def DepthFirst.Begins (g : GraphI) (root : Nat) (steps : List Step) : Prop :=
  ∃ d, DepthFirst.new g root = .ok d ∧ calls (DepthFirst.next g) steps.length d = .ok (steps.map some)

/-- `BreadthFirst::new(g, root)` is `Ok`, the first calls of `next` yield `steps`, and the following one panics with the message
`msg`. -/
def BreadthFirst.PanicsAfter (g : GraphI) (root : Nat) (steps : List Step) (msg : String) : Prop :=
  BreadthFirst.Begins g root steps ∧
    ∃ b, BreadthFirst.new g root = .ok b ∧ calls (BreadthFirst.next g) (steps.length + 1) b = .panic msg

/-- `DepthFirst::new(g, root)` is `Ok`, the first calls of `next` yield `steps`, and the following one panics with the message
`msg`. -/
def DepthFirst.PanicsAfter (g : GraphI) (root : Nat) (steps : List Step) (msg : String) : Prop :=
  DepthFirst.Begins g root steps ∧
    ∃ d, DepthFirst.new g root = .ok d ∧ calls (DepthFirst.next g) (steps.length + 1) d = .panic msg

/-- `DepthFirst.Tame` holds for the first node, in `nodes()` order, of every connected component. -/
def Components.Tame (g : GraphI) : Prop :=
  ∀ r ∈ g.nodes, (∀ x, [x, r].Sublist g.nodes → ¬ g.simple.Reachable x r) → DepthFirst.Tame g r

/-- `components(g)` yields exactly `comps`, then `None` for ever, without a panic (`fuel` is the budget of the
depth-first traversal inside each call of `next`; any large enough one gives the same). -/
def Components.Run (g : GraphI) (comps : List DefaultGraph) : Prop :=
  ∃ N, ∀ fuel, N ≤ fuel → EndsAfter (Components.next g fuel) (Components.new g) comps

/-- The outcomes of the first `n` calls of `next`, if every panic is caught and the iterator is used again as it is left. -/
def callsCaught {σ α : Type} (next : σ → σ × Out (Option α)) : Nat → σ → List (Out (Option α))
  | 0, _ => []
  | n + 1, s => (next s).2 :: callsCaught next n (next s).1

/-- Of these calls, the first yield or panic as `items` says, and all later ones return `None`. -/
def EndsCaught {σ α : Type} (next : σ → σ × Out (Option α)) (s : σ) (items : List (Out α)) : Prop :=
  ∀ n, callsCaught next n s =
    (items.take n).map (fun o => o >>= fun a => .ok (some a)) ++ List.replicate (n - items.length) (.ok none)

/-- `neighbors(v)` is `Ok`. -/
def GraphI.answers (g : GraphI) (v : Nat) : Bool := match g.neighbors v with | .ok _ => true | _ => false

/-- The graph `g` from which those neighbors are struck that have no answer to `neighbors`. -/
def GraphI.answering (g : GraphI) : GraphI :=
  { g with neighbors := fun v => g.neighbors v >>= fun ns => .ok (ns.filter g.answers) }

/-- The value returned, if there is one. -/
def Out.val? {α : Type} : Out α → Option α
  | .ok a => some a
  | _ => none

/-- `components(g)`, panics caught: the calls of `next` yield or panic as `items` says, then return `None` for ever. -/
def Components.CaughtRun (g : GraphI) (items : List (Out DefaultGraph)) : Prop :=
  ∃ N, ∀ fuel, N ≤ fuel → EndsCaught (Components.nextLeft g fuel) (Components.new g) items

/-- The call with outcome `o` yielded a graph, and `x` is one of its nodes. -/
def Components.InGraph (o : Out DefaultGraph) (x : Nat) : Prop := ∃ c, o = .ok c ∧ x ∈ c.nodes

/-- What a call of `next` on `components(g)` yields, or how it panics, if `r` is the node it starts from; whatever `g` is. -/
inductive Components.Outcome (g : GraphI) (r : Nat) : Out DefaultGraph → Prop
  /-- `neighbors(r)` is an `Err` -/
  | noRoot (e : Error) : g.neighbors r = .err e → Outcome g r (.panic "root not found")
  /-- the depth-first traversal reports a step twice -/
  | twice (steps : List Step) : (DepthFirst.Run g r steps ∨ DepthFirst.PanicsAfter g r steps "unwrap") →
      ¬ (steps.map (fun s => (s.sid, s.tid))).Nodup → Outcome g r (.panic "traversal error")
  /-- the traversal panics, and has reported no step twice -/
  | mute (steps : List Step) : DepthFirst.PanicsAfter g r steps "unwrap" → (steps.map (fun s => (s.sid, s.tid))).Nodup →
      Outcome g r (.panic "unwrap")
  /-- the traversal ends, and has reported no step twice -/
  | found (steps : List Step) (c : DefaultGraph) : DepthFirst.Run g r steps → (steps.map (fun s => (s.sid, s.tid))).Nodup →
      c.ReachableNoAdjLoop → c.nodes = discovered r steps → c.edges = steps.map (fun s => (s.sid, s.tid)) →
      (∀ v ∈ c.nodes, c.neighbors v = .ok (incident v (steps.map (fun s => (s.sid, s.tid))))) → Outcome g r (.ok c)

/-- What C29 claims of the components of `g`. -/
structure AreComponents (g : GraphI) (comps : List DefaultGraph) : Prop where
  /-- two nodes are in a common component exactly when they are connected -/
  together : ∀ u v, u ∈ g.nodes → v ∈ g.nodes →
    ((∃ c ∈ comps, u ∈ c.nodes ∧ v ∈ c.nodes) ↔ g.simple.Reachable u v)
  /-- no node is in two components -/
  disjoint : comps.Pairwise (fun c c' => ∀ x ∈ c.nodes, x ∉ c'.nodes)
  /-- a component has all the edges of `g` between its nodes -/
  edges : ∀ c ∈ comps, ∀ u ∈ c.nodes, ∀ v ∈ c.nodes, u ≠ v → (c.toI.Adj u v ↔ g.Adj u v)

/-- `steps` is the depth-first traversal of `c` from its first node. -/
def OwnRun (c : DefaultGraph) (steps : List Step) : Prop :=
  ∃ r, c.nodes.head? = some r ∧ DepthFirst.Run c.toI r steps

/-- First come, first served.  `taken i` says that the step at position `i` is taken: exactly if its two ends differ, neither of them is
the source of an earlier step, and neither is the target of an earlier step that was taken. -/
def FirstCome (steps : List Step) (taken : Nat → Prop) : Prop :=
  ∀ i s, steps[i]? = some s → (taken i ↔ s.sid ≠ s.tid ∧ ∀ j t, j < i → steps[j]? = some t →
    t.sid ≠ s.sid ∧ t.sid ≠ s.tid ∧ (taken j → t.tid ≠ s.sid ∧ t.tid ≠ s.tid))

/-- `greedy(g)` returns `p`. -/
def GreedyReturns (g : GraphI) (p : Pairing) : Prop := ∃ N, ∀ fuel, N ≤ fuel → greedy g fuel = .ok p

/-! ### Matchings -/

/-- A matching of `g`: a list of edges of `g` between distinct nodes, no two of which (at different
positions) share a node. -/
structure IsMatching (g : GraphI) (M : List (Nat × Nat)) : Prop where
  edge : ∀ e ∈ M, e.1 ≠ e.2 ∧ g.Adj e.1 e.2
  disjoint : M.Pairwise (fun e f => e.1 ≠ f.1 ∧ e.1 ≠ f.2 ∧ e.2 ≠ f.1 ∧ e.2 ≠ f.2)

/-- A matching with the largest possible number of edges. -/
def IsMaximum (g : GraphI) (M : List (Nat × Nat)) : Prop :=
  IsMatching g M ∧ ∀ M', IsMatching g M' → M'.length ≤ M.length

/-- What is left of `g` when the nodes of `A` are deleted (Mathlib's induced subgraph). -/
abbrev GraphI.without (g : GraphI) (A : Finset Nat) : SimpleGraph {v | v ∈ g.nodes ∧ v ∉ A} :=
  g.simple.induce {v | v ∈ g.nodes ∧ v ∉ A}

/-- The number of connected components with an odd number of nodes that `g` has without the nodes of `A`. -/
noncomputable def GraphI.oddParts (g : GraphI) (A : Finset Nat) : Nat := (g.without A).oddComponents.ncard

/-- The map inside a `HashMap` has at most one entry per key, and mates are mutual and different. -/
structure Pairing.Symmetric (p : Pairing) : Prop where
  keys_nodup : (p.pairs.map Prod.fst).Nodup
  mate_mate : ∀ x y, p.mate x = .ok y → x ≠ y ∧ p.mate y = .ok x

/-- `p` is (the state of) a matching of `g`. -/
structure Pairing.Matches (p : Pairing) (g : GraphI) : Prop where
  symmetric : p.Symmetric
  adj : ∀ x y, p.mate x = .ok y → g.Adj x y

/-- A pairing a program can hold: new, then any `pair` of two different nodes and any `augment` along a
path without repeated nodes that does not panic. -/
inductive Pairing.Reachable : Pairing → Prop
  | new : Reachable .new
  | pair (p : Pairing) (s t : Nat) : Reachable p → s ≠ t → Reachable (p.pair s t)
  | augment (p q : Pairing) (path : List Nat) :
      Reachable p → path.Nodup → p.augment path = .ok q → Reachable q

/-- As `Reachable`, but nodes may be paired with themselves and paths may repeat nodes: every pairing a
program can hold. -/
inductive Pairing.AnyReachable : Pairing → Prop
  | new : AnyReachable .new
  | pair (p : Pairing) (s t : Nat) : AnyReachable p → AnyReachable (p.pair s t)
  | augment (p q : Pairing) (path : List Nat) :
      AnyReachable p → p.augment path = .ok q → AnyReachable q

/-- An augmenting path for `p`, as a list of nodes: no repetition, the first and the last node are
unpaired, and the inner nodes are mates two by two (second and third, fourth and fifth, …). -/
structure Pairing.Augmenting (p : Pairing) (path : List Nat) : Prop where
  nodup : path.Nodup
  even : path.length % 2 = 0
  first : ∀ a, path.head? = some a → p.hasNode a = false
  last : ∀ a, path.getLast? = some a → p.hasNode a = false
  mates : ∀ i a b, path[2 * i + 1]? = some a → path[2 * i + 2]? = some b → p.mate a = .ok b

/-- A path along which augmenting pays: no repetition, an even number of nodes, the mate of every node on it is on it,
and a node on it is unpaired.  (Weaker than `Augmenting`: `Augmenting.improving`.) -/
structure Pairing.Improving (p : Pairing) (path : List Nat) : Prop where
  nodup : path.Nodup
  even : path.length % 2 = 0
  closed : ∀ x y, x ∈ path → p.mate x = .ok y → y ∈ path
  unpaired : ∃ x ∈ path, p.hasNode x = false

/-- An odd cycle of `g`, as a list of nodes: at least three different nodes, an odd number, each adjacent to the next
and the last to the first. -/
structure OddCycle (g : GraphI) (C : List Nat) : Prop where
  nodup : C.Nodup
  odd : C.length % 2 = 1
  long : 3 ≤ C.length
  chain : C.IsChain g.Adj
  closes : ∀ a b, C.head? = some a → C.getLast? = some b → g.Adj b a

/-- No two odd cycles share a node, unless they have the same nodes.  (A bipartite graph has no odd cycle at all.) -/
def GraphI.OddCyclesApart (g : GraphI) : Prop :=
  ∀ C D x y, OddCycle g C → OddCycle g D → x ∈ C → x ∈ D → y ∈ C → y ∈ D

/-- Every two nodes are adjacent. -/
def GraphI.Complete (g : GraphI) : Prop := ∀ u ∈ g.nodes, ∀ v ∈ g.nodes, u ≠ v → g.Adj u v

/-- Each component is complete multipartite: of two adjacent nodes, every connected node is adjacent to one.  (So nodes that are not
adjacent have the same neighbors.)  Among these are complete graphs, complete bipartite graphs and stars.  Self-loops do not count. -/
def GraphI.Multipartite (g : GraphI) : Prop :=
  ∀ x z y, g.simple.Adj x z → g.simple.Reachable x y → g.simple.Adj x y ∨ g.simple.Adj y z

/-- Adjacency is transitive: every component is a clique.  Self-loops do not count. -/
def GraphI.Cliques (g : GraphI) : Prop := ∀ u v w, g.Adj u v → g.Adj v w → u ≠ w → g.Adj u w

/-- Every two nodes of the component of `v` are adjacent. -/
def GraphI.CliqueAt (g : GraphI) (v : Nat) : Prop :=
  ∀ x y, g.simple.Reachable v x → g.simple.Reachable v y → x ≠ y → g.Adj x y

/-- No two odd cycles of the component of `v` share a node, unless they have the same nodes. -/
def GraphI.ApartAt (g : GraphI) (v : Nat) : Prop :=
  ∀ C D x y, OddCycle g C → OddCycle g D → x ∈ C → x ∈ D → g.simple.Reachable v x → y ∈ C → y ∈ D

/-- Each component is a clique, or else no two of its odd cycles share a node (unless they have the same nodes). -/
def GraphI.CliquesOrApart (g : GraphI) : Prop := ∀ v ∈ g.nodes, g.CliqueAt v ∨ g.ApartAt v

/-- The component of `v` has no three disjoint edges.  (This holds of any component with at most five nodes.) -/
def GraphI.NarrowAt (g : GraphI) (v : Nat) : Prop :=
  ∀ a b c d e f, g.simple.Reachable v a → g.simple.Reachable v c → g.simple.Reachable v e →
    g.Adj a b → g.Adj c d → g.Adj e f → ¬ [a, b, c, d, e, f].Nodup

/-- How many neighbors `x` has, other than itself. -/
def GraphI.others (g : GraphI) (x : Nat) : Nat := ((g.nbr x).filter (fun y => y != x)).length

/-- Count the neighbors of each node of the component of `v` in excess of two: all in all there are at most two.  So there are at most
two nodes with three neighbors, or one with four, and no other node has more than two. -/
def GraphI.SlimAt (g : GraphI) (v : Nat) : Prop :=
  ∀ l : List Nat, l.Nodup → (∀ x ∈ l, g.simple.Reachable v x) → (l.map (fun x => g.others x - 2)).sum ≤ 2

/-- Each component is a clique, or has no two odd cycles that share a node (unless they have the same nodes), or has no three
disjoint edges, or has at most two neighbors in excess of two. -/
def GraphI.EasyParts (g : GraphI) : Prop := ∀ v ∈ g.nodes, g.CliqueAt v ∨ g.ApartAt v ∨ g.NarrowAt v ∨ g.SlimAt v

/-- All nodes are connected with each other. -/
def GraphI.AllConnected (g : GraphI) : Prop := ∀ x ∈ g.nodes, ∀ y ∈ g.nodes, g.simple.Reachable x y

/-- The component of `v` has no more edges (self-loops aside) than nodes. -/
def GraphI.LeanAt (g : GraphI) (v : Nat) : Prop :=
  {e ∈ g.simple.edgeSet | ∀ x ∈ e, g.simple.Reachable v x}.ncard ≤ {x | g.simple.Reachable v x}.ncard

/-- Two odd cycles share at most one node, unless they have the same nodes: rings may touch (as in a spiro compound), but not run
along each other. -/
def GraphI.OddCyclesTouch (g : GraphI) : Prop :=
  ∀ C D x y z, OddCycle g C → OddCycle g D → x ∈ C → x ∈ D → y ∈ C → y ∈ D → x ≠ y → z ∈ C → z ∈ D

/-! ### `maximum_matching` -/

/-- The number of nodes that are their own neighbor. -/
def GraphI.loops (g : GraphI) : Nat := g.nodes.countP (fun v => (g.nbr v).contains v)

/-- An upper bound on how often a graph can be contracted: half the number of nodes, plus one for each
self-loop. -/
def GraphI.depth (g : GraphI) : Nat := g.nodes.length / 2 + g.loops

/-- No id can overflow: the largest node id plus the largest possible number of contractions fits. -/
def Headroom (pf : Platform) (g : GraphI) : Prop := ∀ v ∈ g.nodes, v + g.depth ≤ pf.usizeMax

/-- The pairs of `q` are the pairs of `p` under their new names. -/
def RenamedPairs (f : Nat → Nat) (g : GraphI) (p q : Pairing) : Prop :=
  ∀ x' y', q.mate x' = .ok y' ↔ ∃ x ∈ g.nodes, ∃ y ∈ g.nodes, x' = f x ∧ y' = f y ∧ p.mate x = .ok y

/-- Two outcomes are the same, values compared with `r`. -/
def Out.SameBy {α : Type} (r : α → α → Prop) : Out α → Out α → Prop
  | .ok a, .ok b => r a b
  | .err e, .err e' => e = e'
  | .panic m, .panic m' => m = m'
  | .timeout, .timeout => True
  | _, _ => False

/-- The entries of `q` for the nodes in `S`. -/
def Pairing.within (q : Pairing) (S : List Nat) : Pairing := { pairs := q.pairs.filter (fun e => S.contains e.1) }

/-- No paired id is one that `maximum_matching` on `g` may make up for a blossom: those follow the largest node id. -/
def Pairing.Clear (q : Pairing) (g : GraphI) : Prop :=
  ∀ v w, q.mate v = .ok w → (∃ u ∈ g.nodes, v ≤ u) ∨ ∀ u ∈ g.nodes, u + g.depth < v

/-- `maximum_matching(g, p)` returns, leaving the pairing `q` (for some hash iteration orders and some budget). -/
def MatchingReturns (pf : Platform) (g : GraphI) (p q : Pairing) : Prop :=
  ∃ (ords : List Bool → Nat → HashOrder) (fuel : Nat), (∀ l i, (ords l i).Valid) ∧ maximumMatching pf fuel ords g p = .ok q

/-- No node of `g` has an id that `maximum_matching` on `h` may make up for a blossom. -/
def GraphI.ClearOf (g h : GraphI) : Prop :=
  ∀ v ∈ g.nodes, (∃ u ∈ h.nodes, v ≤ u) ∨ ∀ u ∈ h.nodes, u + h.depth < v

/-- `maximum_matching` is called on the graphs `gs` in turn, with one pairing: `p` at first and `q` in the end. -/
inductive MatchedInTurn (pf : Platform) : (gs : List GraphI) → (p q : Pairing) → Prop
  | nil (p : Pairing) : MatchedInTurn pf [] p p
  | cons (g : GraphI) (gs : List GraphI) (p q r : Pairing) :
      MatchingReturns pf g p q → MatchedInTurn pf gs q r → MatchedInTurn pf (g :: gs) p r

/-- The search for an augmenting path, on `g` and `p`, returns `Some(path)`. -/
def Finds (pf : Platform) (g : GraphI) (p : Pairing) (path : List Nat) : Prop :=
  ∃ (ords : Nat → HashOrder) (fuel : Nat), (∀ i, (ords i).Valid) ∧ augmentingPath pf ords fuel g p = .ok (some path)

/-- The pairings `maximum_matching(g, p)` goes through: `p`, and from each the one it is augmented to. -/
inductive Visits (pf : Platform) (g : GraphI) (p : Pairing) : Pairing → Prop
  | start : Visits pf g p p
  | step (r r' : Pairing) (path : List Nat) :
      Visits pf g p r → Finds pf g r path → r.augment path = .ok r' → Visits pf g p r'

/-- From the pairing `r`, `k` rounds of searching for a path and augmenting along it lead to `r'`. -/
inductive Leads (pf : Platform) (g : GraphI) : Nat → Pairing → Pairing → Prop
  | none (r : Pairing) : Leads pf g 0 r r
  | round (k : Nat) (r r1 r' : Pairing) (path : List Nat) :
      Finds pf g r path → r.augment path = .ok r1 → Leads pf g k r1 r' → Leads pf g (k + 1) r r'

/-! ### A part of a graph -/

/-- Every neighbor list is in the order of `edges()` (a self-loop counts twice), as it is in a graph made with `add_edge`. -/
def GraphI.InEdgeOrder (g : GraphI) : Prop := ∀ v ∈ g.nodes, g.neighbors v = .ok (incident v g.edges)

/-- `h` is the part of `g` on the nodes in `S`: those nodes and the edges at them, in the order they have in `g`; and no
edge of `g` leads out of `S`. -/
structure GraphI.PartOn (S : Nat → Bool) (g h : GraphI) : Prop where
  nodes : h.nodes = g.nodes.filter S
  edges : h.edges = g.edges.filter (fun e => S e.1)
  closed : ∀ e ∈ g.edges, S e.1 = S e.2

/-- The pairs of `q` are the pairs of `p` in `S`. -/
def Pairing.PartOn (S : Nat → Bool) (p q : Pairing) : Prop := ∀ x y, q.mate x = .ok y ↔ p.mate x = .ok y ∧ S x = true

/-! ### The parts of `maximum_matching` on their own -/

/-- One call: `(none, x)` is `add_root(x)`, `(some q, x)` is `add_edge(q, x)`. -/
def Forest.call (f : Forest) : Option Nat × Nat → Out Forest
  | (none, x) => f.addRoot x
  | (some q, x) => f.addEdge q x

/-- The forest after a list of calls on a new one. -/
def Forest.build (calls : List (Option Nat × Nat)) : Out Forest := calls.foldlM Forest.call Forest.new

/-- The list leads from `x` to a root: every node but the last was added as a child of the next one, the last as a root. -/
def RootPath (calls : List (Option Nat × Nat)) (x : Nat) (l : List Nat) : Prop :=
  l.head? = some x ∧ l.Nodup ∧ l.IsChain (fun a b => (some b, a) ∈ calls) ∧
    ∃ r, l.getLast? = some r ∧ (none, r) ∈ calls

/-- One call: `.inl x` is `mark_node(x)`, `.inr (s, t)` is `mark_edge(s, t)`. -/
def Marker.call (m : Marker) : Nat ⊕ (Nat × Nat) → Out Marker
  | .inl x => m.markNode x
  | .inr (s, t) => m.markEdge s t

/-- The marker after a list of calls on a new one. -/
def Marker.build (calls : List (Nat ⊕ (Nat × Nat))) : Out Marker := calls.foldlM Marker.call Marker.new

/-- A list of nodes of `g`, none twice, each adjacent to the next. -/
def PathIn (g : GraphI) (l : List Nat) : Prop := l ≠ [] ∧ l.Nodup ∧ l.IsChain g.Adj ∧ ∀ x ∈ l, x ∈ g.nodes

/-- The blossom is a cycle of the graph with a usable id. -/
structure BlossomIn (g : GraphI) (b : Blossom) : Prop where
  nodup : b.path.Nodup
  sub : ∀ x ∈ b.path, x ∈ g.nodes
  ne : b.path ≠ []
  closed : (b.path ++ b.path.take 1).IsChain g.Adj
  id : ¬ (b.id ∈ g.nodes ∧ b.id ∉ b.path)

end Gamma
