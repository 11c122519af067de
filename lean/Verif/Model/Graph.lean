import Verif.Model.Core
/-
Model of /repo/src/graph: the `Graph` trait and `DefaultGraph`.
-/
namespace Gamma

/-- The `Graph` trait as seen through a shared reference `&G` — /repo/src/graph/graph.rs:4-37.
A value of this structure is the table of answers one borrowed graph gives to each trait method.
Simplifications: `usize` is `Nat`; the boxed iterators are the lists of the items they yield; a
shared borrow cannot change, so each method is a function of its arguments only (an implementation
with interior mutability is outside the model). -/
structure GraphI where
  /-- graph.rs:6 -/
  isEmpty : Bool
  /-- graph.rs:9 -/
  order : Nat
  /-- graph.rs:12 -/
  size : Nat
  /-- graph.rs:16 -/
  nodes : List Nat
  /-- graph.rs:21 -/
  neighbors : Nat → Out (List Nat)
  /-- graph.rs:24 -/
  hasNode : Nat → Bool
  /-- graph.rs:28 -/
  degree : Nat → Out Nat
  /-- graph.rs:32 -/
  edges : List (Nat × Nat)
  /-- graph.rs:36 -/
  hasEdge : Nat → Nat → Out Bool

/-- `DefaultGraph` — /repo/src/graph/default_graph.rs:31-36. -/
structure DefaultGraph where
  indices : HMap Nat
  adjacency : List (List Nat)
  nodes : List Nat
  edges : List (Nat × Nat)
  deriving DecidableEq, Repr

namespace DefaultGraph

/-- `DefaultGraph::new` — default_graph.rs:39-46. -/
def new : DefaultGraph := { indices := [], adjacency := [], nodes := [], edges := [] }

/-- `DefaultGraph::add_node` — default_graph.rs:48-60.  `&mut self` becomes a returned graph, which is
returned on the error path too. -/
def addNode (g : DefaultGraph) (id : Nat) : DefaultGraph × Out Unit :=
  match g.indices.get id with
  | some _ => (g, .err (.duplicateNode id))
  | none =>
    ({ g with
        indices := g.indices.insert id g.nodes.length
        nodes := g.nodes ++ [id]
        adjacency := g.adjacency ++ [[]] }, .ok ())

/-- `DefaultGraph::add_edge` — default_graph.rs:62-81.  The two pushes are done one after the other,
so for `sid == tid` the same row receives both. -/
def addEdge (g : DefaultGraph) (sid tid : Nat) : DefaultGraph × Out Unit :=
  match g.indices.get sid with
  | none => (g, .err (.missingNode sid))
  | some si =>
    match g.indices.get tid with
    | none => (g, .err (.missingNode tid))
    | some ti =>
      match g.adjacency[si]? with
      | none => (g, .panic "index out of bounds")
      | some row =>
        if row.contains tid then (g, .err (.duplicateEdge sid tid))
        else
          let adj1 := g.adjacency.modify si (· ++ [tid])
          match adj1[ti]? with
          | none => ({ g with adjacency := adj1 }, .panic "index out of bounds")
          | some _ =>
            ({ g with
                adjacency := adj1.modify ti (· ++ [sid])
                edges := g.edges ++ [(sid, tid)] }, .ok ())

/-- `DefaultGraph::index_for` — default_graph.rs:83-88. -/
def indexFor (g : DefaultGraph) (id : Nat) : Out Nat :=
  match g.indices.get id with
  | some index => .ok index
  | none => .err (.missingNode id)

/-- `Graph::is_empty` — default_graph.rs:92-94. -/
def isEmpty (g : DefaultGraph) : Bool := g.nodes.isEmpty

/-- `Graph::order` — default_graph.rs:96-98. -/
def order (g : DefaultGraph) : Nat := g.nodes.length

/-- `Graph::size` — default_graph.rs:100-102. -/
def size (g : DefaultGraph) : Nat := g.edges.length

/-- `Graph::neighbors` — default_graph.rs:109-114. -/
def neighbors (g : DefaultGraph) (id : Nat) : Out (List Nat) :=
  g.indexFor id >>= fun index => vecIndex g.adjacency index

/-- `Graph::has_node` — default_graph.rs:116-118. -/
def hasNode (g : DefaultGraph) (id : Nat) : Bool := g.indices.containsKey id

/-- `Graph::degree` — default_graph.rs:120-124. -/
def degree (g : DefaultGraph) (id : Nat) : Out Nat :=
  g.indexFor id >>= fun index => vecIndex g.adjacency index >>= fun row => .ok row.length

/-- `Graph::has_edge` — default_graph.rs:131-139. -/
def hasEdge (g : DefaultGraph) (sid tid : Nat) : Out Bool :=
  g.indexFor sid >>= fun index =>
    if g.indices.containsKey tid then
      vecIndex g.adjacency index >>= fun row => .ok (row.contains tid)
    else .err (.missingNode tid)

/-- `impl Graph for DefaultGraph` — default_graph.rs:91-140 (`nodes` is lines 104-107, `edges` is
lines 126-129). -/
def toI (g : DefaultGraph) : GraphI where
  isEmpty := g.isEmpty
  order := g.order
  size := g.size
  nodes := g.nodes
  neighbors := g.neighbors
  hasNode := g.hasNode
  degree := g.degree
  edges := g.edges
  hasEdge := g.hasEdge

/-- Inner loop of `TryFrom<Vec<Vec<usize>>>` — default_graph.rs:149-161: `row` is the not yet visited
rest of `neighbors` (so `neighbors[index+1..]` is the tail), `es` is `result.edges`. -/
def tryFromRow (adj : List (List Nat)) (sid : Nat) :
    (row : List Nat) → (es : List (Nat × Nat)) → Out (List (Nat × Nat))
  | [], es => .ok es
  | tid :: rest, es =>
    if tid ≥ adj.length then .err (.missingNode tid)
    else if rest.contains tid then .err (.duplicateEdge sid tid)
    else
      vecIndex adj tid >>= fun trow =>
        if !trow.contains sid then .err (.missingEdge tid sid)
        else tryFromRow adj sid rest (if sid < tid then es ++ [(sid, tid)] else es)

/-- Outer loop of `TryFrom<Vec<Vec<usize>>>` — default_graph.rs:148-165: `rows` are the rows from
index `sid` on. -/
def tryFromRows (adj : List (List Nat)) :
    (rows : List (List Nat)) → (sid : Nat) → DefaultGraph → Out DefaultGraph
  | [], _, g => .ok g
  | row :: rows, sid, g =>
    tryFromRow adj sid row g.edges >>= fun es =>
      tryFromRows adj rows (sid + 1)
        { g with edges := es, nodes := g.nodes ++ [sid], indices := g.indices.insert sid sid }

/-- `TryFrom<Vec<Vec<usize>>> for DefaultGraph` — default_graph.rs:142-171. -/
def tryFromAdjacency (adj : List (List Nat)) : Out DefaultGraph :=
  tryFromRows adj adj 0 new >>= fun g => .ok { g with adjacency := adj }

/-- `result.add_node(id)?` where only the new graph is used afterwards. -/
def addNodeQ (g : DefaultGraph) (id : Nat) : Out DefaultGraph :=
  (g.addNode id).2 >>= fun _ => .ok (g.addNode id).1

/-- `result.add_edge(sid, tid)?` where only the new graph is used afterwards. -/
def addEdgeQ (g : DefaultGraph) (sid tid : Nat) : Out DefaultGraph :=
  (g.addEdge sid tid).2 >>= fun _ => .ok (g.addEdge sid tid).1

/-- Loop body of `TryFrom<Vec<(usize, usize)>>` — default_graph.rs:201-211. -/
def tryFromEdgesStep (g : DefaultGraph) (e : Nat × Nat) : Out DefaultGraph :=
  (if !g.hasNode e.1 then g.addNodeQ e.1 else .ok g) >>= fun g1 =>
    (if !g1.hasNode e.2 then g1.addNodeQ e.2 else .ok g1) >>= fun g2 =>
      g2.addEdgeQ e.1 e.2

/-- `TryFrom<Vec<(usize, usize)>> for DefaultGraph` — default_graph.rs:195-215. -/
def tryFromEdges (es : List (Nat × Nat)) : Out DefaultGraph :=
  es.foldlM tryFromEdgesStep new

/-- Loop over `self.edges()` in `PartialEq::eq` — default_graph.rs:231-239 (an `Err` is `false`). -/
def eqEdges (other : DefaultGraph) : List (Nat × Nat) → Out Bool
  | [] => .ok true
  | (sid, tid) :: rest =>
    match other.hasEdge sid tid with
    | .ok r => if !r then .ok false else eqEdges other rest
    | .err _ => .ok false
    | .panic m => .panic m
    | .timeout => .timeout

/-- `PartialEq for DefaultGraph` — default_graph.rs:217-243. -/
def eq (g other : DefaultGraph) : Out Bool :=
  if g.size != other.size then .ok false
  else if g.order != other.order then .ok false
  else if g.nodes.all (fun id => other.hasNode id) then eqEdges other g.edges
  else .ok false

end DefaultGraph
end Gamma
