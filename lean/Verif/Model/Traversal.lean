import Verif.Model.Graph
/-
Model of /repo/src/traversal: `Step`, `DepthFirst`, `BreadthFirst`, and the conversion of a
depth-first traversal into a `DefaultGraph`.
-/
namespace Gamma

/-- `Step` — /repo/src/traversal/step.rs:4-14. -/
structure Step where
  sid : Nat
  tid : Nat
  cut : Bool
  deriving DecidableEq, Repr

/-- `DepthFirst` — /repo/src/traversal/depth_first.rs:38-42.  `nodes` is a `HashSet` used only for
`insert` and `contains`.  `stack` is the `Vec` in reverse: its head is the top (the `Vec`'s last
element).  The borrowed graph is a separate argument of each method. -/
structure DepthFirst where
  nodes : List Nat
  stack : List (Nat × Nat)
  deriving DecidableEq, Repr

namespace DepthFirst

/-- `DepthFirst::new` — depth_first.rs:45-57.  The pushes followed by `stack.reverse()` leave the first
neighbor on top. -/
def new (g : GraphI) (root : Nat) : Out DepthFirst :=
  g.neighbors root >>= fun ns =>
    .ok { nodes := [root], stack := ns.map (fun n => (root, n)) }

/-- One round of the loop over the (reversed) neighbors — depth_first.rs:95-107. -/
def pushNeighbor (visited : List Nat) (parent node : Nat)
    (stack : List (Nat × Nat)) (neighbor : Nat) : List (Nat × Nat) :=
  if neighbor == parent then stack
  else
    let stack1 :=
      if visited.contains neighbor then
        stack.filter (fun edge => edge.1 != neighbor && edge.2 != node)
      else stack
    (node, neighbor) :: stack1

/-- `Iterator::next` — depth_first.rs:83-115. -/
def next (g : GraphI) (d : DepthFirst) : Out (Option Step × DepthFirst) :=
  match d.stack with
  | [] => .ok (none, d)
  | (parent, node) :: rest =>
    if d.nodes.contains node then
      .ok (some ⟨parent, node, true⟩, { d with stack := rest })
    else
      (g.neighbors node).expect "unwrap" >>= fun ns =>
        .ok (some ⟨parent, node, false⟩,
          { nodes := node :: d.nodes
            stack := ns.reverse.foldl (pushNeighbor d.nodes parent node) rest })

/-- `derive(PartialEq)` on `DepthFirst` — depth_first.rs:37: the fields are compared in the order of their declaration, the
`HashSet`s as sets, and the comparison stops at the first difference.  `graphEq` is the comparison of the two graphs. -/
def eq (graphEq : Out Bool) (d e : DepthFirst) : Out Bool :=
  if !(d.nodes.length == e.nodes.length && d.nodes.all (fun v => e.nodes.contains v)) then .ok false
  else if !(d.stack == e.stack) then .ok false
  else graphEq

/-- Loop body of `into_table` — depth_first.rs:63-73. -/
def tableStep (t : List Nat × List (Nat × Nat)) (st : Step) :
    Out (List Nat × List (Nat × Nat)) :=
  let nodes1 := if t.1.isEmpty then t.1 ++ [st.sid] else t.1
  let nodes2 := if !st.cut then nodes1 ++ [st.tid] else nodes1
  .ok (nodes2, t.2 ++ [(st.sid, st.tid)])

/-- `DepthFirst::into_table` — depth_first.rs:59-76. -/
def intoTable (g : GraphI) (fuel : Nat) (d : DepthFirst) :
    Out (List Nat × List (Nat × Nat)) :=
  forLoop (next g) tableStep fuel d ([], [])

end DepthFirst

namespace DefaultGraph

/-- Loop body of `TryFrom<DepthFirst>` — default_graph.rs:179-189. -/
def tryFromDfsStep (r : DefaultGraph) (st : Step) : Out DefaultGraph :=
  (if r.isEmpty then r.addNodeQ st.sid else .ok r) >>= fun r1 =>
    (if !st.cut then r1.addNodeQ st.tid else .ok r1) >>= fun r2 =>
      r2.addEdgeQ st.sid st.tid

/-- `TryFrom<DepthFirst<'a, G>> for DefaultGraph` — default_graph.rs:173-193. -/
def tryFromDfs (g : GraphI) (fuel : Nat) (d : DepthFirst) : Out DefaultGraph :=
  forLoop (DepthFirst.next g) tryFromDfsStep fuel d new

end DefaultGraph

/-- `BreadthFirst` — /repo/src/traversal/breadth_first.rs:50-54.  `queue` is the `VecDeque` with its
back first: the head of the list is what `pop_back` takes, `push_front` appends at the end. -/
structure BreadthFirst where
  nodes : List Nat
  queue : List (Nat × Nat)
  deriving DecidableEq, Repr

namespace BreadthFirst

/-- `BreadthFirst::new` — breadth_first.rs:57-68. -/
def new (g : GraphI) (root : Nat) : Out BreadthFirst :=
  g.neighbors root >>= fun ns =>
    .ok { nodes := [root], queue := ns.map (fun n => (root, n)) }

/-- One round of the loop over the neighbors — breadth_first.rs:82-88. -/
def pushNeighbor (visited : List Nat) (parent node : Nat)
    (queue : List (Nat × Nat)) (neighbor : Nat) : List (Nat × Nat) :=
  if neighbor == parent || visited.contains neighbor then queue
  else queue ++ [(node, neighbor)]

/-- `Iterator::next` — breadth_first.rs:75-96. -/
def next (g : GraphI) (b : BreadthFirst) : Out (Option Step × BreadthFirst) :=
  match b.queue with
  | [] => .ok (none, b)
  | (parent, node) :: rest =>
    if b.nodes.contains node then
      .ok (some ⟨parent, node, true⟩, { b with queue := rest })
    else
      (g.neighbors node).expect "unwrap" >>= fun ns =>
        .ok (some ⟨parent, node, false⟩,
          { nodes := node :: b.nodes
            queue := ns.foldl (pushNeighbor b.nodes parent node) rest })

end BreadthFirst

/-- `DepthFirst::next` — depth_first.rs:83-115: the iterator as the call leaves it, and the outcome.  Only `unwrap`
(depth_first.rs:90) can panic; by then the edge has been popped (depth_first.rs:84), and nothing else has changed. -/
def DepthFirst.nextLeft (g : GraphI) (d : DepthFirst) : DepthFirst × Out (Option Step) :=
  match d.stack with
  | [] => (d, .ok none)
  | (parent, node) :: rest =>
    if d.nodes.contains node then
      ({ d with stack := rest }, .ok (some ⟨parent, node, true⟩))
    else
      match (g.neighbors node).expect "unwrap" with
      | .ok ns =>
        ({ nodes := node :: d.nodes
           stack := ns.reverse.foldl (DepthFirst.pushNeighbor d.nodes parent node) rest }, .ok (some ⟨parent, node, false⟩))
      | .err e => ({ d with stack := rest }, .err e)
      | .panic m => ({ d with stack := rest }, .panic m)
      | .timeout => ({ d with stack := rest }, .timeout)

/-- `BreadthFirst::next` — breadth_first.rs:75-96: the iterator as the call leaves it, and the outcome.  Only `unwrap`
(breadth_first.rs:82) can panic; by then the edge has been popped (breadth_first.rs:76), and nothing else has changed. -/
def BreadthFirst.nextLeft (g : GraphI) (b : BreadthFirst) : BreadthFirst × Out (Option Step) :=
  match b.queue with
  | [] => (b, .ok none)
  | (parent, node) :: rest =>
    if b.nodes.contains node then
      ({ b with queue := rest }, .ok (some ⟨parent, node, true⟩))
    else
      match (g.neighbors node).expect "unwrap" with
      | .ok ns =>
        ({ nodes := node :: b.nodes
           queue := ns.foldl (BreadthFirst.pushNeighbor b.nodes parent node) rest }, .ok (some ⟨parent, node, false⟩))
      | .err e => ({ b with queue := rest }, .err e)
      | .panic m => ({ b with queue := rest }, .panic m)
      | .timeout => ({ b with queue := rest }, .timeout)

end Gamma
