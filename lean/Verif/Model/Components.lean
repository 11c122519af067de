import Verif.Model.Traversal
/-
Model of /repo/src/selection/components.rs.
-/
namespace Gamma

/-- `Components` — /repo/src/selection/components.rs:46-51.  `iter` is the not yet consumed rest of
`graph.nodes()`; `visited` is a `HashSet` used only for `insert` and `contains`. -/
structure Components where
  visited : List Nat
  iter : List Nat
  deriving DecidableEq, Repr

namespace Components

/-- `components` — components.rs:36-44. -/
def new (g : GraphI) : Components := { visited := [], iter := g.nodes }

/-- The search for an unvisited root — components.rs:57-66: the root found and the rest of `iter`. -/
def findRoot (visited : List Nat) : List Nat → Option Nat × List Nat
  | [] => (none, [])
  | root :: rest => if !visited.contains root then (some root, rest) else findRoot visited rest

/-- `Iterator::next` — components.rs:56-86.  `fuel` bounds the inner depth-first traversal. -/
def next (g : GraphI) (fuel : Nat) (c : Components) : Out (Option DefaultGraph × Components) :=
  match findRoot c.visited c.iter with
  | (none, rest) => .ok (none, { c with iter := rest })
  | (some root, rest) =>
    (DepthFirst.new g root).expect "root not found" >>= fun traversal =>
      (DefaultGraph.tryFromDfs g fuel traversal).expect "traversal error" >>= fun component =>
        if component.isEmpty then
          (component.addNodeQ root).expect "add root to empty graph" >>= fun component1 =>
            .ok (some component1, { visited := root :: c.visited, iter := rest })
        else
          .ok (some component,
            { visited := component.nodes.reverse ++ (root :: c.visited), iter := rest })

/-- All of `components(graph)`, collected. -/
def all (g : GraphI) (fuel : Nat) : Out (List DefaultGraph) :=
  collect (next g fuel) fuel (new g)

/-- `Iterator::next` — components.rs:56-86: the iterator as the call leaves it, and the outcome.  All of what can panic comes
after `visited.insert(root)` (components.rs:68) and before the nodes of the component are inserted (components.rs:80-82). -/
def nextLeft (g : GraphI) (fuel : Nat) (c : Components) : Components × Out (Option DefaultGraph) :=
  match findRoot c.visited c.iter with
  | (none, rest) => ({ c with iter := rest }, .ok none)
  | (some root, rest) =>
    let c1 : Components := { visited := root :: c.visited, iter := rest }
    match (DepthFirst.new g root).expect "root not found" >>= fun traversal =>
        (DefaultGraph.tryFromDfs g fuel traversal).expect "traversal error" with
    | .ok component =>
      if component.isEmpty then
        (c1, (component.addNodeQ root).expect "add root to empty graph" >>= fun component1 => .ok (some component1))
      else
        ({ c1 with visited := component.nodes.reverse ++ c1.visited }, .ok (some component))
    | .err e => (c1, .err e)
    | .panic m => (c1, .panic m)
    | .timeout => (c1, .timeout)

end Components
end Gamma
