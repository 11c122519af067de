import Verif.Model.Components
import Verif.Model.Pairing
/-
Model of /repo/src/matching: `greedy`, `Forest`, `Marker`, `Blossom`, `maximum_matching`.
-/
namespace Gamma

/-! ### greedy.rs -/

/-- Loop body over the steps — /repo/src/matching/greedy.rs:52-57.  `nodes.insert(sid) &&
nodes.insert(tid)`: the second insertion happens only if the first one was new, and the first one
stays even if the second one fails. -/
def greedyStep (s : List Nat × Pairing) (st : Step) : Out (List Nat × Pairing) :=
  if s.1.contains st.sid then .ok s
  else
    let nodes1 := st.sid :: s.1
    if nodes1.contains st.tid then .ok (nodes1, s.2)
    else .ok (st.tid :: nodes1, s.2.pair st.sid st.tid)

/-- Loop body over the components — greedy.rs:46-58. -/
def greedyComponent (fuel : Nat) (s : List Nat × Pairing) (component : DefaultGraph) :
    Out (List Nat × Pairing) :=
  match component.nodes with
  | [] => .panic "root"
  | root :: _ =>
    (DepthFirst.new component.toI root).expect "could not create depth-first traversal" >>=
      fun traversal => forLoop (DepthFirst.next component.toI) greedyStep fuel traversal s

/-- `greedy` — greedy.rs:41-61. -/
def greedy (g : GraphI) (fuel : Nat) : Out Pairing :=
  forLoop (Components.next g fuel) (greedyComponent fuel) fuel (Components.new g) ([], Pairing.new)
    >>= fun s => .ok s.2

/-! ### forest.rs -/

/-- `Entry` and `Parity` — /repo/src/matching/forest.rs:74-84; `even = true` is `Parity::Even`. -/
structure Entry where
  parent : Option Nat
  even : Bool
  deriving DecidableEq, Repr

/-- `Forest` — forest.rs:5-8. -/
structure Forest where
  parents : HMap Entry
  nodes : List Nat
  deriving DecidableEq, Repr

namespace Forest

/-- `Forest::new` — forest.rs:11-16. -/
def new : Forest := { parents := [], nodes := [] }

/-- `Forest::add_root` — forest.rs:18-26. -/
def addRoot (f : Forest) (root : Nat) : Out Forest :=
  match f.parents.get root with
  | none =>
    .ok { parents := f.parents.insert root ⟨none, true⟩, nodes := f.nodes ++ [root] }
  | some _ => .panic "duplicate node"

/-- `Forest::add_edge` — forest.rs:28-41 (`Parity::invert` is lines 86-93). -/
def addEdge (f : Forest) (parent node : Nat) : Out Forest :=
  match f.parents.get parent with
  | none => .panic "missing parent"
  | some entry =>
    match f.parents.get node with
    | none =>
      .ok { parents := f.parents.insert node ⟨some parent, !entry.even⟩, nodes := f.nodes ++ [node] }
    | some _ => .panic "duplicate node"

/-- The filter closure of `even_nodes` — forest.rs:44-46, with its `unwrap` on an absent node. -/
def isEven (f : Forest) (node : Nat) : Out Bool :=
  match f.parents.get node with
  | some e => .ok e.even
  | none => .panic "called `Option::unwrap()` on a `None` value"

/-- The lazy iterator of `even_nodes` (forest.rs:44-46), driven over the nodes `l` to its end. -/
def evenAmong (f : Forest) : (l : List Nat) → Out (List Nat)
  | [] => .ok []
  | x :: r => f.isEven x >>= fun b => evenAmong f r >>= fun k => .ok (if b then x :: k else k)

/-- `Forest::even_nodes`, collected — forest.rs:43-47. -/
def evenNodes (f : Forest) : Out (List Nat) := f.evenAmong f.nodes

/-- The same iterator driven by `Iterator::find(pred)` (maximum_matching.rs:96), which stops at the
first hit: later nodes are not looked up. -/
def firstEven (f : Forest) (pred : Nat → Bool) : (l : List Nat) → Out (Option Nat)
  | [] => .ok none
  | x :: r =>
    f.isEven x >>= fun b => if b && pred x then .ok (some x) else firstEven f pred r

/-- The loop of `Forest::path` — forest.rs:56-70.  `acc` is `result`. -/
def pathLoop (f : Forest) : (fuel : Nat) → Option Nat → List Nat → Out (List Nat)
  | 0, _, _ => .timeout
  | _ + 1, none, acc => .ok acc
  | n + 1, some id, acc =>
    match f.parents.get id with
    | none => .panic "missing parent"
    | some e => pathLoop f n e.parent (acc ++ [id])

/-- `Forest::path` — forest.rs:49-71. -/
def path (f : Forest) (fuel : Nat) (node : Nat) : Out (Option (List Nat)) :=
  match f.parents.get node with
  | none => .ok none
  | some e => pathLoop f fuel e.parent [node] >>= fun r => .ok (some r)

end Forest

/-! ### marker.rs -/

/-- `Marker` — /repo/src/matching/marker.rs:4-7. -/
structure Marker where
  nodes : List Nat
  edges : HMap (List Nat)
  deriving DecidableEq, Repr

namespace Marker

/-- `Marker::new` — marker.rs:10-15. -/
def new : Marker := { nodes := [], edges := [] }

/-- `Marker::mark_node` — marker.rs:17-21. -/
def markNode (m : Marker) (id : Nat) : Out Marker :=
  if m.nodes.contains id then .panic "node marked twice"
  else .ok { m with nodes := id :: m.nodes }

/-- `Marker::has_node` — marker.rs:23-25. -/
def hasNode (m : Marker) (id : Nat) : Bool := m.nodes.contains id

/-- The first half of `mark_edge` — marker.rs:28-39. -/
def markEdgeFwd (m : Marker) (sid tid : Nat) : Out Marker :=
  match m.edges.get sid with
  | some l =>
    if l.contains tid then .panic "edge marked twice"
    else .ok { m with edges := m.edges.insert sid (l ++ [tid]) }
  | none => .ok { m with edges := m.edges.insert sid [tid] }

/-- The second half of `mark_edge` — marker.rs:41-48. -/
def markEdgeBwd (m : Marker) (sid tid : Nat) : Marker :=
  match m.edges.get tid with
  | some l => { m with edges := m.edges.insert tid (l ++ [sid]) }
  | none => { m with edges := m.edges.insert tid [sid] }

/-- `Marker::mark_edge` — marker.rs:27-49. -/
def markEdge (m : Marker) (sid tid : Nat) : Out Marker :=
  m.markEdgeFwd sid tid >>= fun m1 => .ok (m1.markEdgeBwd sid tid)

/-- `Marker::has_edge` — marker.rs:51-56. -/
def hasEdge (m : Marker) (sid tid : Nat) : Bool :=
  match m.edges.get sid with
  | none => false
  | some l => l.contains tid

end Marker

/-! ### blossom.rs -/

/-- `Blossom` — /repo/src/matching/blossom.rs:5-8. -/
structure Blossom where
  id : Nat
  path : List Nat
  deriving DecidableEq, Repr

namespace Blossom

/-- The two nested loops of `Blossom::new` — blossom.rs:14-29: `pre` is `left[0..i]`, the list argument
is `left[i..]`.  The inner loop finds the first `j` with `left[i] == right[j]`; `right[0..j]` is
`right.takeWhile (· ≠ left[i])`. -/
def newLoop (right : List Nat) : (pre : List Nat) → List Nat → Out (List Nat)
  | _, [] => .panic "blossom root not found"
  | pre, root :: rest =>
    if right.contains root then
      .ok (pre ++ root :: (right.takeWhile (fun x => x != root)).reverse)
    else newLoop right (pre ++ [root]) rest

/-- `Blossom::new` — blossom.rs:11-32. -/
def new (id : Nat) (left right : List Nat) : Out Blossom :=
  newLoop right [] left >>= fun path => .ok { id := id, path := path }

/-- Loop over the nodes in `contract_graph` — blossom.rs:41-45. -/
def contractNode (b : Blossom) (r : DefaultGraph) (id : Nat) : Out DefaultGraph :=
  if !b.path.contains id then r.addNodeQ id else .ok r

/-- Loop over the edges in `contract_graph` — blossom.rs:47-61. -/
def contractEdge (b : Blossom) (r : DefaultGraph) (e : Nat × Nat) : Out DefaultGraph :=
  if b.path.contains e.1 then
    if !b.path.contains e.2 then
      r.hasEdge b.id e.2 >>= fun h => if !h then r.addEdgeQ b.id e.2 else .ok r
    else .ok r
  else if b.path.contains e.2 then
    r.hasEdge e.1 b.id >>= fun h => if !h then r.addEdgeQ e.1 b.id else .ok r
  else r.addEdgeQ e.1 e.2

/-- `Blossom::contract_graph` — blossom.rs:34-64. -/
def contractGraph (b : Blossom) (g : GraphI) : Out DefaultGraph :=
  DefaultGraph.new.addNodeQ b.id >>= fun r0 =>
    g.nodes.foldlM b.contractNode r0 >>= fun r1 =>
      g.edges.foldlM b.contractEdge r1

/-- Loop body of `contract_pairing` — blossom.rs:69-79. -/
def contractPair (b : Blossom) (r : Pairing) (e : Nat × Nat) : Pairing :=
  if b.path.contains e.1 then
    if !b.path.contains e.2 then r.pair b.id e.2 else r
  else if b.path.contains e.2 then r.pair e.1 b.id
  else r.pair e.1 e.2

/-- `Blossom::contract_pairing` — blossom.rs:66-82. -/
def contractPairing (b : Blossom) (ord : HashOrder) (p : Pairing) : Pairing :=
  (p.edges ord).foldl b.contractPair Pairing.new

/-- `Vec::rotate_right(1)`. -/
def rotateRight1 (l : List Nat) : List Nat :=
  match l.getLast? with
  | none => l
  | some x => x :: l.dropLast

/-- `while !graph.has_edge(sid, copy[0]).unwrap() { copy.rotate_right(1) }` — blossom.rs:112-114,
143-145 and 168-170. -/
def rotateToHead (g : GraphI) (sid : Nat) : (fuel : Nat) → List Nat → Out (List Nat)
  | 0, _ => .timeout
  | n + 1, copy =>
    vecIndex copy 0 >>= fun c0 =>
      (g.hasEdge sid c0).expect "unwrap" >>= fun h =>
        if !h then rotateToHead g sid n (rotateRight1 copy) else .ok copy

/-- `while !graph.has_edge(*copy.last().unwrap(), tid).unwrap() { copy.rotate_right(1) }` —
blossom.rs:127-129. -/
def rotateToLast (g : GraphI) (tid : Nat) : (fuel : Nat) → List Nat → Out (List Nat)
  | 0, _ => .timeout
  | n + 1, copy =>
    match copy.getLast? with
    | none => .panic "unwrap"
    | some c =>
      (g.hasEdge c tid).expect "unwrap" >>= fun h =>
        if !h then rotateToLast g tid n (rotateRight1 copy) else .ok copy

/-- `for &bid in &blossom { out.push(bid); if graph.has_edge(bid, tid).unwrap() { break } }` —
blossom.rs:149-155 and 172-178. -/
def pushUntil (g : GraphI) (tid : Nat) : List Nat → (out : List Nat) → Out (List Nat)
  | [], out => .ok out
  | bid :: rest, out =>
    (g.hasEdge bid tid).expect "unwrap" >>= fun h =>
      if h then .ok (out ++ [bid]) else pushUntil g tid rest (out ++ [bid])

/-- `lift_left_blossom` — blossom.rs:106-119. -/
def liftLeftBlossom (b : Blossom) (fuel : Nat) (left : List Nat) (g : GraphI) : Out (List Nat) :=
  match left.getLast? with
  | none => .panic "unwrap"
  | some sid => rotateToHead g sid fuel b.path >>= fun copy => .ok (left ++ copy)

/-- `lift_blossom_right` — blossom.rs:121-134. -/
def liftBlossomRight (b : Blossom) (fuel : Nat) (right : List Nat) (g : GraphI) : Out (List Nat) :=
  vecIndex right 0 >>= fun tid =>
    rotateToLast g tid fuel b.path >>= fun copy => .ok (copy ++ right)

/-- One direction of `lift_left_blossom_right` — blossom.rs:143-157 with `bp = self.path`, and
blossom.rs:168-180 with `bp` its reverse. -/
def liftThrough (fuel : Nat) (bp left right : List Nat) (sid tid : Nat) (g : GraphI) :
    Out (List Nat) :=
  rotateToHead g sid fuel bp >>= fun bl =>
    pushUntil g tid bl left >>= fun out => .ok (out ++ right)

/-- `lift_left_blossom_right` — blossom.rs:136-183. -/
def liftLeftBlossomRight (b : Blossom) (fuel : Nat) (left right : List Nat) (g : GraphI) :
    Out (List Nat) :=
  match left.getLast? with
  | none => .panic "unwrap"
  | some sid =>
    vecIndex right 0 >>= fun tid =>
      liftThrough fuel b.path left right sid tid g >>= fun forward =>
        if forward.length % 2 == 0 then .ok forward
        else liftThrough fuel b.path.reverse left right sid tid g

/-- `Blossom::lift` — blossom.rs:84-104. -/
def lift (b : Blossom) (fuel : Nat) (path : List Nat) (g : GraphI) : Out (List Nat) :=
  match path.findIdx? (fun pid => pid == b.id) with
  | none => .ok path
  | some index =>
    let left := path.take index
    let right := path.drop (index + 1)
    if left.isEmpty && right.isEmpty then .ok b.path
    else if !left.isEmpty && right.isEmpty then b.liftLeftBlossom fuel left g
    else if left.isEmpty && !right.isEmpty then b.liftBlossomRight fuel right g
    else b.liftLeftBlossomRight fuel left right g

end Blossom

/-! ### maximum_matching.rs -/

/-- What the target platform and build profile contribute: the largest `usize`, and whether integer
overflow panics (debug) or wraps around (release).  Only `max_id + 1` can overflow. -/
structure Platform where
  usizeMax : Nat
  overflowChecks : Bool

/-- The message of Rust's overflow panic. -/
def overflowMsg : String := "attempt to add with overflow"

/-- `max_id + 1` — /repo/src/matching/maximum_matching.rs:128. -/
def Platform.succ (pf : Platform) (n : Nat) : Out Nat :=
  if n < pf.usizeMax then .ok (n + 1)
  else if pf.overflowChecks then .panic overflowMsg
  else .ok 0

/-- `graph.nodes().max().expect("no max id")` — maximum_matching.rs:127. -/
def maxNode (g : GraphI) : Out Nat :=
  match g.nodes.max? with
  | some m => .ok m
  | none => .panic "no max id"

/-- `some_v` — maximum_matching.rs:95-97. -/
def someV (f : Forest) (m : Marker) : Out (Option Nat) :=
  f.firstEven (fun id => !m.hasNode id) f.nodes

/-- `some_w` — maximum_matching.rs:99-103. -/
def someW (v : Nat) (g : GraphI) (m : Marker) : Out (Option Nat) :=
  (g.neighbors v).expect "neighbors of v" >>= fun ns =>
    .ok (ns.find? (fun id => !m.hasEdge v id))

/-- `process_blossom` — maximum_matching.rs:124-136.  `rec` is the recursive call
`augmenting_path(&contracted_graph, &mut contracted_pairing)`. -/
def processBlossom (pf : Platform) (ord : HashOrder) (fuel : Nat)
    (rec : GraphI → Pairing → Out (Option (List Nat)))
    (left right : List Nat) (g : GraphI) (p : Pairing) : Out (Option (List Nat)) :=
  maxNode g >>= fun maxId =>
    pf.succ maxId >>= fun id =>
      Blossom.new id left right >>= fun blossom =>
        (blossom.contractGraph g).expect "bad graph" >>= fun cg =>
          rec cg.toI (blossom.contractPairing ord p) >>= fun r =>
            match r with
            | some path => blossom.lift fuel path g >>= fun lifted => .ok (some lifted)
            | none => .ok none

/-- `even_path` — maximum_matching.rs:105-122. -/
def evenPath (pf : Platform) (ord : HashOrder) (fuel : Nat)
    (rec : GraphI → Pairing → Out (Option (List Nat)))
    (v : Nat) (pathW : List Nat) (g : GraphI) (f : Forest) (p : Pairing) :
    Out (Option (List Nat)) :=
  f.path fuel v >>= fun pv =>
    match pv with
    | none => .panic "v not in forest"
    | some pathV =>
      if pathV.getLast? == pathW.getLast? then
        processBlossom pf ord fuel rec pathV pathW g p
      else .ok (some (pathV.reverse ++ pathW))

/-- How a loop body that may `return` from the enclosing function ends. -/
inductive Flow (α β : Type) where
  | ret (r : α)
  | fall (s : β)

/-- The inner `loop` of `augmenting_path` for a fixed `v` — maximum_matching.rs:68-87.  `fuel0` is the
budget handed to the loops inside the body. -/
def apInner (pf : Platform) (ord : HashOrder) (fuel0 : Nat)
    (rec : GraphI → Pairing → Out (Option (List Nat)))
    (g : GraphI) (p : Pairing) (v : Nat) :
    (fuel : Nat) → Forest → Marker → Out (Flow (Option (List Nat)) (Forest × Marker))
  | 0, _, _ => .timeout
  | n + 1, f, m =>
    someW v g m >>= fun ow =>
      match ow with
      | none => .ok (.fall (f, m))
      | some w =>
        f.path fuel0 w >>= fun pw =>
          match pw with
          | some pathW =>
            if pathW.length % 2 == 1 then
              evenPath pf ord fuel0 rec v pathW g f p >>= fun r => .ok (.ret r)
            else
              m.markEdge v w >>= fun m1 => apInner pf ord fuel0 rec g p v n f m1
          | none =>
            f.addEdge v w >>= fun f1 =>
              p.mate w >>= fun mw =>
                f1.addEdge w mw >>= fun f2 =>
                  m.markEdge v w >>= fun m1 => apInner pf ord fuel0 rec g p v n f2 m1

/-- The outer `loop` of `augmenting_path` and the final `None` — maximum_matching.rs:62-92. -/
def apOuter (pf : Platform) (ord : HashOrder) (fuel0 : Nat)
    (rec : GraphI → Pairing → Out (Option (List Nat)))
    (g : GraphI) (p : Pairing) :
    (fuel : Nat) → Forest → Marker → Out (Option (List Nat))
  | 0, _, _ => .timeout
  | n + 1, f, m =>
    someV f m >>= fun ov =>
      match ov with
      | none => .ok none
      | some v =>
        apInner pf ord fuel0 rec g p v fuel0 f m >>= fun fl =>
          match fl with
          | .ret r => .ok r
          | .fall (f1, m1) => m1.markNode v >>= fun m2 => apOuter pf ord fuel0 rec g p n f1 m2

/-- `augmenting_path` — maximum_matching.rs:46-93.  `ords` supplies the `HashMap` iteration orders: a
call made with budget `n + 1` iterates its pairing in the order `ords n`, so nested and successive
calls may see unrelated orders.  Both iterations over one unmodified map within a call (lines 52
and 130) use the same order, as in Rust. -/
def augmentingPath (pf : Platform) (ords : Nat → HashOrder) :
    (fuel : Nat) → GraphI → Pairing → Out (Option (List Nat))
  | 0, _, _ => .timeout
  | n + 1, g, p =>
    (p.edges (ords n)).foldlM (fun m e => m.markEdge e.1 e.2) Marker.new >>= fun marker =>
      (g.nodes.filter (fun v => !p.hasNode v)).foldlM (fun f v => f.addRoot v) Forest.new >>=
        fun forest =>
          apOuter pf (ords n) n (augmentingPath pf ords n) g p n forest marker

/-- `maximum_matching` — maximum_matching.rs:37-44.  The body is one `while let` loop; an iteration
augments, calls the function recursively and goes round again, which is the function again.
`ords` gives each call of `augmenting_path` its own supply of iteration orders: the call made at the
position `l` of the tree of calls (`false` = into the recursive call, `true` = round the loop) uses
`ords l`. -/
def maximumMatching (pf : Platform) :
    (fuel : Nat) → (ords : List Bool → Nat → HashOrder) → GraphI → Pairing → Out Pairing
  | 0, _, _, _ => .timeout
  | n + 1, ords, g, p =>
    augmentingPath pf (ords []) n g p >>= fun r =>
      match r with
      | none => .ok p
      | some path =>
        p.augment path >>= fun p1 =>
          maximumMatching pf n (fun l => ords (false :: l)) g p1 >>= fun p2 =>
            maximumMatching pf n (fun l => ords (true :: l)) g p2

/-- `maximum_matching` (maximum_matching.rs:37-44) with the pairing as it stands when the call ends: by returning, by
panicking (what the owner of the pairing finds after `catch_unwind`), or because the budget is used up (the pairing of a run
under way).  `augmenting_path` borrows the pairing mutably but changes nothing in it (lines 46-93). -/
def maximumMatchingLeft (pf : Platform) :
    (fuel : Nat) → (ords : List Bool → Nat → HashOrder) → GraphI → Pairing → Pairing × Out Unit
  | 0, _, _, p => (p, .timeout)
  | n + 1, ords, g, p =>
    match augmentingPath pf (ords []) n g p with
    | .err e => (p, .err e)
    | .panic m => (p, .panic m)
    | .timeout => (p, .timeout)
    | .ok none => (p, .ok ())
    | .ok (some path) =>
      match p.augmentLeft path with
      | (p1, .ok ()) =>
        match maximumMatchingLeft pf n (fun l => ords (false :: l)) g p1 with
        | (p2, .ok ()) => maximumMatchingLeft pf n (fun l => ords (true :: l)) g p2
        | r => r
      | r => r

/-- What a call of `maximum_matching` cost: how often it (and the calls it made of itself) called `augmenting_path`, how often
`augment`, and how many calls of `maximum_matching` were open at the same time at most. -/
structure Tally where
  searches : Nat
  augmentations : Nat
  depth : Nat
deriving DecidableEq, Repr

/-- `maximum_matching` (maximum_matching.rs:37-44) with a tally.  The call itself is open (depth 1), the recursive call of line 42
is open on top of it, and what follows it (line 40 again) is not. -/
def maximumMatchingTally (pf : Platform) :
    (fuel : Nat) → (ords : List Bool → Nat → HashOrder) → GraphI → Pairing → Out (Pairing × Tally)
  | 0, _, _, _ => .timeout
  | n + 1, ords, g, p =>
    augmentingPath pf (ords []) n g p >>= fun r =>
      match r with
      | none => .ok (p, ⟨1, 0, 1⟩)
      | some path =>
        p.augment path >>= fun p1 =>
          maximumMatchingTally pf n (fun l => ords (false :: l)) g p1 >>= fun (p2, t2) =>
            maximumMatchingTally pf n (fun l => ords (true :: l)) g p2 >>= fun (p3, t3) =>
              .ok (p3, ⟨1 + t2.searches + t3.searches, 1 + t2.augmentations + t3.augmentations, max (1 + t2.depth) t3.depth⟩)

/-- `augmenting_path` (maximum_matching.rs:46-93) on a stack that has room for `limit` nested calls of it: line 132 calls it
on the contracted graph before the call at hand has returned. -/
def augmentingPathNested (pf : Platform) (ords : Nat → HashOrder) :
    (limit fuel : Nat) → GraphI → Pairing → Out (Option (List Nat))
  | _, 0, _, _ => .timeout
  | 0, _ + 1, _, _ => .panic "stack overflow"
  | limit + 1, n + 1, g, p =>
    (p.edges (ords n)).foldlM (fun m e => m.markEdge e.1 e.2) Marker.new >>= fun marker =>
      (g.nodes.filter (fun v => !p.hasNode v)).foldlM (fun f v => f.addRoot v) Forest.new >>=
        fun forest =>
          apOuter pf (ords n) n (augmentingPathNested pf ords limit n) g p n forest marker

/-! The same search once more, with a count of how often `neighbors` is called (line 100, in `some_w`): one number for each call
of `augmenting_path`, first that of the call at hand, then those of the calls nested in it. -/

/-- `process_blossom` (maximum_matching.rs:124-136) with the counts of the recursive call. -/
def processBlossomLooks (pf : Platform) (ord : HashOrder) (fuel : Nat)
    (rec : GraphI → Pairing → Out (Option (List Nat) × List Nat))
    (left right : List Nat) (g : GraphI) (p : Pairing) : Out (Option (List Nat) × List Nat) :=
  maxNode g >>= fun maxId =>
    pf.succ maxId >>= fun id =>
      Blossom.new id left right >>= fun blossom =>
        (blossom.contractGraph g).expect "bad graph" >>= fun cg =>
          rec cg.toI (blossom.contractPairing ord p) >>= fun r =>
            match r with
            | (some path, looks) => blossom.lift fuel path g >>= fun lifted => .ok (some lifted, looks)
            | (none, looks) => .ok (none, looks)

/-- `even_path` (maximum_matching.rs:105-122) with the counts of the nested calls. -/
def evenPathLooks (pf : Platform) (ord : HashOrder) (fuel : Nat)
    (rec : GraphI → Pairing → Out (Option (List Nat) × List Nat))
    (v : Nat) (pathW : List Nat) (g : GraphI) (f : Forest) (p : Pairing) :
    Out (Option (List Nat) × List Nat) :=
  f.path fuel v >>= fun pv =>
    match pv with
    | none => .panic "v not in forest"
    | some pathV =>
      if pathV.getLast? == pathW.getLast? then
        processBlossomLooks pf ord fuel rec pathV pathW g p
      else .ok (some (pathV.reverse ++ pathW), [])

/-- The inner `loop` of `augmenting_path` (maximum_matching.rs:68-87); `looks` counts the calls of `some_w` (line 69). -/
def apInnerLooks (pf : Platform) (ord : HashOrder) (fuel0 : Nat)
    (rec : GraphI → Pairing → Out (Option (List Nat) × List Nat))
    (g : GraphI) (p : Pairing) (v : Nat) :
    (fuel : Nat) → Forest → Marker → (looks : Nat) →
      Out (Flow (Option (List Nat) × List Nat) (Forest × Marker × Nat))
  | 0, _, _, _ => .timeout
  | n + 1, f, m, looks =>
    someW v g m >>= fun ow =>
      match ow with
      | none => .ok (.fall (f, m, looks + 1))
      | some w =>
        f.path fuel0 w >>= fun pw =>
          match pw with
          | some pathW =>
            if pathW.length % 2 == 1 then
              evenPathLooks pf ord fuel0 rec v pathW g f p >>= fun r => .ok (.ret (r.1, (looks + 1) :: r.2))
            else
              m.markEdge v w >>= fun m1 => apInnerLooks pf ord fuel0 rec g p v n f m1 (looks + 1)
          | none =>
            f.addEdge v w >>= fun f1 =>
              p.mate w >>= fun mw =>
                f1.addEdge w mw >>= fun f2 =>
                  m.markEdge v w >>= fun m1 => apInnerLooks pf ord fuel0 rec g p v n f2 m1 (looks + 1)

/-- The outer `loop` of `augmenting_path` (maximum_matching.rs:62-92) with the count. -/
def apOuterLooks (pf : Platform) (ord : HashOrder) (fuel0 : Nat)
    (rec : GraphI → Pairing → Out (Option (List Nat) × List Nat))
    (g : GraphI) (p : Pairing) :
    (fuel : Nat) → Forest → Marker → (looks : Nat) → Out (Option (List Nat) × List Nat)
  | 0, _, _, _ => .timeout
  | n + 1, f, m, looks =>
    someV f m >>= fun ov =>
      match ov with
      | none => .ok (none, [looks])
      | some v =>
        apInnerLooks pf ord fuel0 rec g p v fuel0 f m looks >>= fun fl =>
          match fl with
          | .ret r => .ok r
          | .fall (f1, m1, looks1) =>
            m1.markNode v >>= fun m2 => apOuterLooks pf ord fuel0 rec g p n f1 m2 looks1

/-- `augmenting_path` (maximum_matching.rs:46-93) with the counts. -/
def augmentingPathLooks (pf : Platform) (ords : Nat → HashOrder) :
    (fuel : Nat) → GraphI → Pairing → Out (Option (List Nat) × List Nat)
  | 0, _, _ => .timeout
  | n + 1, g, p =>
    (p.edges (ords n)).foldlM (fun m e => m.markEdge e.1 e.2) Marker.new >>= fun marker =>
      (g.nodes.filter (fun v => !p.hasNode v)).foldlM (fun f v => f.addRoot v) Forest.new >>=
        fun forest =>
          apOuterLooks pf (ords n) n (augmentingPathLooks pf ords n) g p n forest marker 0

/-- `maximum_matching` (maximum_matching.rs:37-44) with the counts of all its searches, one list for each, in the order in which
they are made. -/
def maximumMatchingLooks (pf : Platform) :
    (fuel : Nat) → (ords : List Bool → Nat → HashOrder) → GraphI → Pairing → Out (Pairing × List (List Nat))
  | 0, _, _, _ => .timeout
  | n + 1, ords, g, p =>
    augmentingPathLooks pf (ords []) n g p >>= fun r =>
      match r with
      | (none, looks) => .ok (p, [looks])
      | (some path, looks) =>
        p.augment path >>= fun p1 =>
          maximumMatchingLooks pf n (fun l => ords (false :: l)) g p1 >>= fun (p2, looks2) =>
            maximumMatchingLooks pf n (fun l => ords (true :: l)) g p2 >>= fun (p3, looks3) =>
              .ok (p3, looks :: (looks2 ++ looks3))

end Gamma
