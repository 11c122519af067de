import Verif.Model.Matching
/-
Conformance of the model with the crate's own unit tests and the examples in its documentation.

These are TESTS of the model, not proofs about it: each `example` runs the model on the literal input
of one `#[test]` of /repo and compares with the outcome that test asserts.  They are here as evidence
that the model, which was written by hand, agrees with the code wherever the code's authors wrote down
what it does; no property in `Props/` rests on them.  The file is generated from the test sources and
then only read by Lean.

Differences from the Rust text: a panic is compared up to the number interpolated in its message;
`HashMap` iteration orders, which Rust leaves open, are taken to be the order of insertion (latest
first); `fuel` is a budget that the run does not use up.
-/
namespace Gamma.Conformance

private def A (l : List (List Nat)) : Out DefaultGraph := DefaultGraph.tryFromAdjacency l
private def E (l : List (Nat × Nat)) : Out DefaultGraph := DefaultGraph.tryFromEdges l
/-- `assert_eq!` on graphs: `PartialEq for DefaultGraph`. -/
private def same (a b : Out DefaultGraph) : Out Bool := a >>= fun x => b >>= fun y => x.eq y
/-- `assert_eq!` on vectors of graphs. -/
private def sameAll (a : Out (List DefaultGraph)) (bs : List (Out DefaultGraph)) : Out Bool :=
  a >>= fun xs => bs.foldrM (fun b acc => b >>= fun y => .ok (y :: acc)) [] >>= fun ys =>
    if xs.length != ys.length then .ok false
    else (xs.zip ys).foldlM (fun r q => q.1.eq q.2 >>= fun h => .ok (r && h)) true
private def sameSetL {α : Type} [BEq α] (a b : List α) : Bool :=
  a.all (fun x => b.contains x) && b.all (fun x => a.contains x)
/-- `assert_eq!` on sets. -/
private def sameSet (a : Out (List Nat)) (b : List Nat) : Out Bool :=
  a >>= fun x => .ok (sameSetL x b)
/-- `assert_eq!` on `pairing.pairs`. -/
private def sameMap (a : Out Pairing) (b : List (Nat × Nat)) : Out Bool :=
  a >>= fun p => .ok (p.eq ⟨b⟩)
/-- `assert_eq!` on the set of `pairing.edges()`. -/
private def sameEdges (a : Out Pairing) (b : List (Nat × Nat)) : Out Bool :=
  a >>= fun p => .ok (sameSetL (p.edges (fun l => l)) b)
private def pf : Platform := ⟨2 ^ 64 - 1, true⟩
private def ords : List Bool → Nat → HashOrder := fun _ _ l => l

/-! ### src/graph/default_graph.rs -/

/-- `try_from_adjacency::missing_node` — default_graph.rs:250-256. -/
example : A [[1]] = .err (.missingNode 1) := by decide +kernel

/-- `try_from_adjacency::duplicate_edge` — default_graph.rs:259-266. -/
example : A [[1, 1], [0]] = .err (.duplicateEdge 0 1) := by decide +kernel

/-- `try_from_adjacency::missing_edge` — default_graph.rs:269-276. -/
example : A [[1], []] = .err (.missingEdge 1 0) := by decide +kernel

/-- `try_from_edges::duplicate_edge` — default_graph.rs:284-291. -/
example : E [(0, 1), (0, 1)] = .err (.duplicateEdge 0 1) := by decide +kernel

/-- `try_from_edges::duplicate_edge_reverse` — default_graph.rs:294-301. -/
example : E [(0, 1), (1, 0)] = .err (.duplicateEdge 1 0) := by decide +kernel

/-- `try_from_edges::valid` — default_graph.rs:304-322. -/
example : same (E [(0, 1), (1, 2), (3, 4)]) (Out.ok DefaultGraph.new >>= fun g => g.addNodeQ 0 >>=
    fun g => g.addNodeQ 1 >>= fun g => g.addNodeQ 2 >>= fun g => g.addNodeQ 3 >>= fun g =>
    g.addNodeQ 4 >>= fun g => g.addEdgeQ 0 1 >>= fun g => g.addEdgeQ 1 2 >>= fun g => g.addEdgeQ 3
    4) = .ok true := by decide +kernel

/-- `try_from_depth_first::p3_internal` — default_graph.rs:330-340. -/
example : (A [[1], [0, 2], [1]] >>= fun g => DepthFirst.new g.toI 1 >>= fun d =>
    DefaultGraph.tryFromDfs g.toI 100 d >>= fun h => .ok h.toI.edges) = .ok [(1, 0), (1, 2)] :=
  by decide +kernel

/-- `try_from_depth_first::c3` — default_graph.rs:343-353. -/
example : (A [[1, 2], [0, 2], [1, 0]] >>= fun g => DepthFirst.new g.toI 0 >>= fun d =>
    DefaultGraph.tryFromDfs g.toI 100 d >>= fun h => .ok h.toI.edges) = .ok [(0, 1), (1, 2), (2,
    0)] := by decide +kernel

/-- `add_node::duplicate` — default_graph.rs:361-367. -/
example : (A [[]] >>= fun g => g.addNodeQ 0) = .err (.duplicateNode 0) := by decide +kernel

/-- `add_edge::duplicate` — default_graph.rs:375-382. -/
example : (A [[1], [0]] >>= fun g => g.addEdgeQ 0 1) = .err (.duplicateEdge 0 1) :=
  by decide +kernel

/-- `add_edge::duplicate_reverse` — default_graph.rs:385-392. -/
example : (A [[1], [0]] >>= fun g => g.addEdgeQ 1 0) = .err (.duplicateEdge 1 0) :=
  by decide +kernel

/-- `add_edge::missing_sid` — default_graph.rs:395-401. -/
example : (A [[]] >>= fun g => g.addEdgeQ 1 0) = .err (.missingNode 1) := by decide +kernel

/-- `add_edge::missing_tid` — default_graph.rs:404-410. -/
example : (A [[]] >>= fun g => g.addEdgeQ 0 1) = .err (.missingNode 1) := by decide +kernel

/-- `is_empty::p0` — default_graph.rs:418-422. -/
example : (Out.ok DefaultGraph.new >>= fun g => Out.ok (g.toI.isEmpty)) = Out.ok true :=
  by decide +kernel

/-- `is_empty::p1` — default_graph.rs:425-431. -/
example : (A [[]] >>= fun g => Out.ok (g.toI.isEmpty)) = Out.ok false := by decide +kernel

/-- `order::p0` — default_graph.rs:439-443. -/
example : (Out.ok DefaultGraph.new >>= fun g => Out.ok (g.toI.order)) = Out.ok 0 :=
  by decide +kernel

/-- `order::p3` — default_graph.rs:446-454. -/
example : (A [[1], [0, 2], [1]] >>= fun g => Out.ok (g.toI.order)) = Out.ok 3 := by decide +kernel

/-- `size::p0` — default_graph.rs:462-466. -/
example : (Out.ok DefaultGraph.new >>= fun g => Out.ok (g.toI.size)) = Out.ok 0 :=
  by decide +kernel

/-- `size::p3` — default_graph.rs:469-477. -/
example : (A [[1], [0, 2], [1]] >>= fun g => Out.ok (g.toI.size)) = Out.ok 2 := by decide +kernel

/-- `nodes::p0` — default_graph.rs:485-489. -/
example : (Out.ok DefaultGraph.new >>= fun g => Out.ok (g.toI.nodes)) = Out.ok [] :=
  by decide +kernel

/-- `nodes::p3` — default_graph.rs:492-500. -/
example : (A [[1], [0, 2], [1]] >>= fun g => Out.ok (g.toI.nodes)) = Out.ok [ 0, 1, 2 ] :=
  by decide +kernel

/-- `neighbors::given_outside` — default_graph.rs:508-512. -/
example : (Out.ok DefaultGraph.new >>= fun g => g.toI.neighbors 1) = .err (.missingNode 1) :=
  by decide +kernel

/-- `neighbors::given_inside_p3` — default_graph.rs:515-523. -/
example : (A [[1], [0, 2], [1]] >>= fun g => g.toI.neighbors 1) = Out.ok [ 0, 2 ] :=
  by decide +kernel

/-- `has_node::given_outside` — default_graph.rs:531-535. -/
example : (Out.ok DefaultGraph.new >>= fun g => Out.ok (g.toI.hasNode 0)) = Out.ok false :=
  by decide +kernel

/-- `has_node::given_inside_p1` — default_graph.rs:538-544. -/
example : (A [[]] >>= fun g => Out.ok (g.toI.hasNode 0)) = Out.ok true := by decide +kernel

/-- `degree::given_outside` — default_graph.rs:552-556. -/
example : (Out.ok DefaultGraph.new >>= fun g => g.toI.degree 0) = .err (.missingNode 0) :=
  by decide +kernel

/-- `degree::given_inside_p3` — default_graph.rs:559-567. -/
example : (A [[1], [0, 2], [1]] >>= fun g => g.toI.degree 1) = Out.ok 2 := by decide +kernel

/-- `edges::p0` — default_graph.rs:575-579. -/
example : (Out.ok DefaultGraph.new >>= fun g => Out.ok (g.toI.edges)) = Out.ok [] :=
  by decide +kernel

/-- `edges::p3` — default_graph.rs:582-590. -/
example : (A [[1], [0, 2], [1]] >>= fun g => Out.ok (g.toI.edges)) = Out.ok [ (0, 1), (1, 2) ] :=
  by decide +kernel

/-- `has_edge::unk_unk` — default_graph.rs:598-602. -/
example : (Out.ok DefaultGraph.new >>= fun g => g.toI.hasEdge 0 1) = .err (.missingNode 0) :=
  by decide +kernel

/-- `has_edge::sid_unk` — default_graph.rs:605-611. -/
example : (A [[]] >>= fun g => g.toI.hasEdge 0 1) = .err (.missingNode 1) := by decide +kernel

/-- `has_edge::sid_tid` — default_graph.rs:614-621. -/
example : (A [[1], [0]] >>= fun g => g.toI.hasEdge 0 1) = Out.ok true := by decide +kernel

/-- `has_edge::tid_sid` — default_graph.rs:624-631. -/
example : (A [[1], [0]] >>= fun g => g.toI.hasEdge 1 0) = Out.ok true := by decide +kernel

/-- `eq::c3_and_p3` — default_graph.rs:639-652. -/
example : same (A [[1, 2], [0, 2], [1, 0]]) (A [[1], [0, 2], [1]]) = .ok false :=
  by decide +kernel

/-- `eq::p2_and_p2_p1` — default_graph.rs:655-667. -/
example : same (A [[1], [0]]) (A [[1], [0], []]) = .ok false := by decide +kernel

/-- `eq::p2_and_p2_reverse` — default_graph.rs:670-679. -/
example : same (E [(0, 1)]) (E [(1, 0)]) = .ok true := by decide +kernel

/-- `eq::p2_and_p2_different_ids` — default_graph.rs:682-691. -/
example : same (E [(0, 1)]) (E [(0, 2)]) = .ok false := by decide +kernel

/-! ### src/traversal/depth_first.rs -/

/-- `into_table::p3` — depth_first.rs:125-137. -/
example : (A [[1], [0, 2], [1]] >>= fun g => DepthFirst.new g.toI 0 >>= DepthFirst.intoTable g.toI
    100) = .ok ([0, 1, 2], [(0, 1), (1, 2)]) := by decide +kernel

/-- `into_table::c3` — depth_first.rs:140-153. -/
example : (A [[1, 2], [0, 2], [1, 0]] >>= fun g => DepthFirst.new g.toI 0 >>= DepthFirst.intoTable
    g.toI 100) = .ok ([0, 1, 2], [(0, 1), (1, 2), (2, 0)]) := by decide +kernel

/-- `into_table::s3` — depth_first.rs:156-170. -/
example : (A [[1], [0, 2, 3], [1], [1]] >>= fun g => DepthFirst.new g.toI 0 >>=
    DepthFirst.intoTable g.toI 100) = .ok ([0, 1, 2, 3], [(0, 1), (1, 2), (1, 3)]) :=
  by decide +kernel

/-- `tests::unknown_root` — depth_first.rs:180-185. -/
example : (Out.ok DefaultGraph.new >>= fun g => DepthFirst.new g.toI 1) = .err (.missingNode 1) :=
  by decide +kernel

/-- `tests::p1` — depth_first.rs:188-195. -/
example : (A [[]] >>= fun g => DepthFirst.new g.toI 0 >>= collect (DepthFirst.next g.toI) 100) =
    .ok [] := by decide +kernel

/-- `tests::p2` — depth_first.rs:198-208. -/
example : (A [[1], [0]] >>= fun g => DepthFirst.new g.toI 0 >>= collect (DepthFirst.next g.toI)
    100) = .ok [⟨0, 1, false⟩] := by decide +kernel

/-- `tests::p3` — depth_first.rs:211-223. -/
example : (A [[1], [0, 2], [1]] >>= fun g => DepthFirst.new g.toI 0 >>= collect (DepthFirst.next
    g.toI) 100) = .ok [⟨0, 1, false⟩, ⟨1, 2, false⟩] := by decide +kernel

/-- `tests::p3_inside` — depth_first.rs:226-238. -/
example : (A [[1], [0, 2], [1]] >>= fun g => DepthFirst.new g.toI 1 >>= collect (DepthFirst.next
    g.toI) 100) = .ok [⟨1, 0, false⟩, ⟨1, 2, false⟩] := by decide +kernel

/-- `tests::p4` — depth_first.rs:241-255. -/
example : (A [[1], [0, 2], [1, 3], [2]] >>= fun g => DepthFirst.new g.toI 0 >>= collect
    (DepthFirst.next g.toI) 100) = .ok [⟨0, 1, false⟩, ⟨1, 2, false⟩, ⟨2, 3, false⟩] :=
  by decide +kernel

/-- `tests::c3` — depth_first.rs:258-271. -/
example : (A [[1, 2], [0, 2], [1, 0]] >>= fun g => DepthFirst.new g.toI 0 >>= collect
    (DepthFirst.next g.toI) 100) = .ok [⟨0, 1, false⟩, ⟨1, 2, false⟩, ⟨2, 0, true⟩] :=
  by decide +kernel

/-- `tests::s3` — depth_first.rs:274-288. -/
example : (A [[1], [0, 2, 3], [1], [1]] >>= fun g => DepthFirst.new g.toI 0 >>= collect
    (DepthFirst.next g.toI) 100) = .ok [⟨0, 1, false⟩, ⟨1, 2, false⟩, ⟨1, 3, false⟩] :=
  by decide +kernel

/-- `tests::s3_inside` — depth_first.rs:291-305. -/
example : (A [[1], [0, 2, 3], [1], [1]] >>= fun g => DepthFirst.new g.toI 1 >>= collect
    (DepthFirst.next g.toI) 100) = .ok [⟨1, 0, false⟩, ⟨1, 2, false⟩, ⟨1, 3, false⟩] :=
  by decide +kernel

/-- `tests::flower_from_stalk` — depth_first.rs:308-323. -/
example : (A [[1], [0, 2, 3], [1, 3], [2, 1]] >>= fun g => DepthFirst.new g.toI 0 >>= collect
    (DepthFirst.next g.toI) 100) = .ok [⟨0, 1, false⟩, ⟨1, 2, false⟩, ⟨2, 3, false⟩, ⟨3, 1, true⟩] :=
  by decide +kernel

/-- `tests::flower_with_cut_in_branch` — depth_first.rs:326-341. -/
example : (A [[1, 2], [0, 2], [1, 0, 3], [2]] >>= fun g => DepthFirst.new g.toI 0 >>= collect
    (DepthFirst.next g.toI) 100) = .ok [⟨0, 1, false⟩, ⟨1, 2, false⟩, ⟨2, 0, true⟩, ⟨2, 3, false⟩] :=
  by decide +kernel

/-- `tests::blocked_branched_path` — depth_first.rs:344-361. -/
example : (A [[1], [0, 2, 3, 4], [1], [1, 4], [3, 1]] >>= fun g => DepthFirst.new g.toI 0 >>=
    collect (DepthFirst.next g.toI) 100) = .ok [⟨0, 1, false⟩, ⟨1, 2, false⟩, ⟨1, 3, false⟩, ⟨3,
    4, false⟩, ⟨4, 1, true⟩] := by decide +kernel

/-- `tests::bicyclo_220_with_cut_on_second_branching` — depth_first.rs:364-384. -/
example : (A [[1, 5], [0, 2], [1, 5, 3], [2, 4], [3, 5], [2, 4, 0]] >>= fun g => DepthFirst.new
    g.toI 0 >>= collect (DepthFirst.next g.toI) 100) = .ok [⟨0, 1, false⟩, ⟨1, 2, false⟩, ⟨2, 5,
    false⟩, ⟨5, 4, false⟩, ⟨4, 3, false⟩, ⟨3, 2, true⟩, ⟨5, 0, true⟩] := by decide +kernel

/-- `tests::bicyclo_210` — depth_first.rs:387-405. -/
example : (A [[1, 2, 4], [0, 2], [1, 0, 3], [2, 4], [3, 0]] >>= fun g => DepthFirst.new g.toI 0
    >>= collect (DepthFirst.next g.toI) 100) = .ok [⟨0, 1, false⟩, ⟨1, 2, false⟩, ⟨2, 0, true⟩,
    ⟨2, 3, false⟩, ⟨3, 4, false⟩, ⟨4, 0, true⟩] := by decide +kernel

/-- `tests::cube` — depth_first.rs:408-435. -/
example : (A [[1, 3, 4], [0, 2, 5], [1, 3, 6], [2, 0, 7], [5, 7, 0], [4, 6, 1], [5, 7, 2], [6, 4,
    3]] >>= fun g => DepthFirst.new g.toI 0 >>= collect (DepthFirst.next g.toI) 100) = .ok [⟨0, 1,
    false⟩, ⟨1, 2, false⟩, ⟨2, 3, false⟩, ⟨3, 0, true⟩, ⟨3, 7, false⟩, ⟨7, 6, false⟩, ⟨6, 5,
    false⟩, ⟨5, 4, false⟩, ⟨4, 7, true⟩, ⟨4, 0, true⟩, ⟨5, 1, true⟩, ⟨6, 2, true⟩] :=
  by decide +kernel

/-! ### src/traversal/breadth_first.rs -/

/-- `tests::nonmember_root` — breadth_first.rs:106-113. -/
example : (A [[]] >>= fun g => BreadthFirst.new g.toI 0 >>= collect (BreadthFirst.next g.toI) 100)
    = .ok [] := by decide +kernel

/-- `tests::p1` — breadth_first.rs:116-123. -/
example : (A [[]] >>= fun g => BreadthFirst.new g.toI 0 >>= collect (BreadthFirst.next g.toI) 100)
    = .ok [] := by decide +kernel

/-- `tests::p2` — breadth_first.rs:126-136. -/
example : (A [[1], [0]] >>= fun g => BreadthFirst.new g.toI 0 >>= collect (BreadthFirst.next
    g.toI) 100) = .ok [⟨0, 1, false⟩] := by decide +kernel

/-- `tests::p3_primary` — breadth_first.rs:139-151. -/
example : (A [[1], [0, 2], [1]] >>= fun g => BreadthFirst.new g.toI 0 >>= collect
    (BreadthFirst.next g.toI) 100) = .ok [⟨0, 1, false⟩, ⟨1, 2, false⟩] := by decide +kernel

/-- `tests::p3_secondary` — breadth_first.rs:154-166. -/
example : (A [[1], [0, 2], [1]] >>= fun g => BreadthFirst.new g.toI 1 >>= collect
    (BreadthFirst.next g.toI) 100) = .ok [⟨1, 0, false⟩, ⟨1, 2, false⟩] := by decide +kernel

/-- `tests::p4_primary` — breadth_first.rs:169-183. -/
example : (A [[1], [0, 2], [1, 3], [2]] >>= fun g => BreadthFirst.new g.toI 1 >>= collect
    (BreadthFirst.next g.toI) 100) = .ok [⟨1, 0, false⟩, ⟨1, 2, false⟩, ⟨2, 3, false⟩] :=
  by decide +kernel

/-- `tests::s3_tertiary` — breadth_first.rs:186-200. -/
example : (A [[1, 2, 3], [0], [0], [0]] >>= fun g => BreadthFirst.new g.toI 0 >>= collect
    (BreadthFirst.next g.toI) 100) = .ok [⟨0, 1, false⟩, ⟨0, 2, false⟩, ⟨0, 3, false⟩] :=
  by decide +kernel

/-- `tests::s3_primary` — breadth_first.rs:203-217. -/
example : (A [[1, 2, 3], [0], [0], [0]] >>= fun g => BreadthFirst.new g.toI 1 >>= collect
    (BreadthFirst.next g.toI) 100) = .ok [⟨1, 0, false⟩, ⟨0, 2, false⟩, ⟨0, 3, false⟩] :=
  by decide +kernel

/-- `tests::c3` — breadth_first.rs:220-233. -/
example : (A [[1, 2], [0, 2], [1, 0]] >>= fun g => BreadthFirst.new g.toI 0 >>= collect
    (BreadthFirst.next g.toI) 100) = .ok [⟨0, 1, false⟩, ⟨0, 2, false⟩, ⟨1, 2, true⟩] :=
  by decide +kernel

/-- `tests::c4` — breadth_first.rs:236-251. -/
example : (A [[1, 3], [0, 2], [1, 3], [2, 0]] >>= fun g => BreadthFirst.new g.toI 0 >>= collect
    (BreadthFirst.next g.toI) 100) = .ok [⟨0, 1, false⟩, ⟨0, 3, false⟩, ⟨1, 2, false⟩, ⟨3, 2,
    true⟩] := by decide +kernel

/-- `tests::diamond` — breadth_first.rs:254-270. -/
example : (A [[1, 2, 3], [2, 0], [0, 1, 3], [0, 2]] >>= fun g => BreadthFirst.new g.toI 0 >>=
    collect (BreadthFirst.next g.toI) 100) = .ok [⟨0, 1, false⟩, ⟨0, 2, false⟩, ⟨0, 3, false⟩, ⟨1,
    2, true⟩, ⟨2, 3, true⟩] := by decide +kernel

/-- `tests::flower_from_stalk` — breadth_first.rs:273-288. -/
example : (A [[1], [0, 2, 3], [1, 3], [2, 1]] >>= fun g => BreadthFirst.new g.toI 0 >>= collect
    (BreadthFirst.next g.toI) 100) = .ok [⟨0, 1, false⟩, ⟨1, 2, false⟩, ⟨1, 3, false⟩, ⟨2, 3,
    true⟩] := by decide +kernel

/-- `tests::t2_primary` — breadth_first.rs:291-311. -/
example : (A [[1, 4], [0, 2, 3], [1, 5], [1, 6], [0], [2], [3]] >>= fun g => BreadthFirst.new
    g.toI 0 >>= collect (BreadthFirst.next g.toI) 100) = .ok [⟨0, 1, false⟩, ⟨0, 4, false⟩, ⟨1, 2,
    false⟩, ⟨1, 3, false⟩, ⟨2, 5, false⟩, ⟨3, 6, false⟩] := by decide +kernel

/-- `tests::t2_tertiary` — breadth_first.rs:314-334. -/
example : (A [[1, 4], [0, 2, 3], [1, 5], [1, 6], [0], [2], [3]] >>= fun g => BreadthFirst.new
    g.toI 1 >>= collect (BreadthFirst.next g.toI) 100) = .ok [⟨1, 0, false⟩, ⟨1, 2, false⟩, ⟨1, 3,
    false⟩, ⟨0, 4, false⟩, ⟨2, 5, false⟩, ⟨3, 6, false⟩] := by decide +kernel

/-- `tests::bicyclo_111` — breadth_first.rs:337-355. -/
example : (A [[1, 2, 3], [0, 4], [0, 4], [0, 4], [1, 2, 3]] >>= fun g => BreadthFirst.new g.toI 0
    >>= collect (BreadthFirst.next g.toI) 100) = .ok [⟨0, 1, false⟩, ⟨0, 2, false⟩, ⟨0, 3, false⟩,
    ⟨1, 4, false⟩, ⟨2, 4, true⟩, ⟨3, 4, true⟩] := by decide +kernel

/-- `tests::bicyclo_221` — breadth_first.rs:358-380. -/
example : (A [[1, 5], [0, 2, 6], [1, 3], [2, 4], [3, 5, 6], [4, 0], [4, 1]] >>= fun g =>
    BreadthFirst.new g.toI 0 >>= collect (BreadthFirst.next g.toI) 100) = .ok [⟨0, 1, false⟩, ⟨0,
    5, false⟩, ⟨1, 2, false⟩, ⟨1, 6, false⟩, ⟨5, 4, false⟩, ⟨2, 3, false⟩, ⟨6, 4, true⟩, ⟨4, 3,
    true⟩] := by decide +kernel

/-- `tests::butterfly` — breadth_first.rs:383-401. -/
example : (A [[1, 2], [0, 2], [0, 1, 3, 4], [2, 4], [2, 3]] >>= fun g => BreadthFirst.new g.toI 0
    >>= collect (BreadthFirst.next g.toI) 100) = .ok [⟨0, 1, false⟩, ⟨0, 2, false⟩, ⟨1, 2, true⟩,
    ⟨2, 3, false⟩, ⟨2, 4, false⟩, ⟨3, 4, true⟩] := by decide +kernel

/-! ### src/selection/components.rs -/

/-- `tests::p1` — components.rs:94-101. -/
example : sameAll (A [[]] >>= fun g => Components.all g.toI 100) [A [[]]] = .ok true :=
  by decide +kernel

/-- `tests::p1_p1` — components.rs:104-117. -/
example : sameAll (A [[], []] >>= fun g => Components.all g.toI 100) [(Out.ok DefaultGraph.new >>=
    fun g => g.addNodeQ 0), (Out.ok DefaultGraph.new >>= fun g => g.addNodeQ 1)] = .ok true :=
  by decide +kernel

/-- `tests::p2` — components.rs:120-128. -/
example : sameAll (A [[1], [0]] >>= fun g => Components.all g.toI 100) [A [[1], [0]]] = .ok true :=
  by decide +kernel

/-- `tests::p2_p1` — components.rs:131-148. -/
example : sameAll (A [[1], [0], []] >>= fun g => Components.all g.toI 100) [(Out.ok
    DefaultGraph.new >>= fun g => g.addNodeQ 0 >>= fun g => g.addNodeQ 1 >>= fun g => g.addEdgeQ 0
    1), (Out.ok DefaultGraph.new >>= fun g => g.addNodeQ 2)] = .ok true := by decide +kernel

/-- `tests::p2_p2_p2` — components.rs:151-178. -/
example : sameAll (A [[1], [0], [3], [2], [5], [4]] >>= fun g => Components.all g.toI 100)
    [(Out.ok DefaultGraph.new >>= fun g => g.addNodeQ 0 >>= fun g => g.addNodeQ 1 >>= fun g =>
    g.addEdgeQ 0 1), (Out.ok DefaultGraph.new >>= fun g => g.addNodeQ 2 >>= fun g => g.addNodeQ 3
    >>= fun g => g.addEdgeQ 2 3), (Out.ok DefaultGraph.new >>= fun g => g.addNodeQ 4 >>= fun g =>
    g.addNodeQ 5 >>= fun g => g.addEdgeQ 4 5)] = .ok true := by decide +kernel

/-- `tests::c3_p2` — components.rs:181-205. -/
example : sameAll (A [[1, 2], [0, 2], [0, 1], [4], [3]] >>= fun g => Components.all g.toI 100)
    [(Out.ok DefaultGraph.new >>= fun g => g.addNodeQ 0 >>= fun g => g.addNodeQ 1 >>= fun g =>
    g.addNodeQ 2 >>= fun g => g.addEdgeQ 0 1 >>= fun g => g.addEdgeQ 1 2 >>= fun g => g.addEdgeQ 2
    0), (Out.ok DefaultGraph.new >>= fun g => g.addNodeQ 3 >>= fun g => g.addNodeQ 4 >>= fun g =>
    g.addEdgeQ 3 4)] = .ok true := by decide +kernel

/-! ### src/matching/greedy.rs -/

/-- `tests::empty` — greedy.rs:71-79. -/
example : sameEdges (Out.ok DefaultGraph.new >>= fun g => greedy g.toI 100) [] = .ok true :=
  by decide +kernel

/-- `tests::p1` — greedy.rs:82-92. -/
example : sameEdges (A [[]] >>= fun g => greedy g.toI 100) [] = .ok true := by decide +kernel

/-- `tests::p2` — greedy.rs:95-106. -/
example : sameEdges (A [[1], [0]] >>= fun g => greedy g.toI 100) [(0, 1)] = .ok true :=
  by decide +kernel

/-- `tests::p2_p2` — greedy.rs:109-121. -/
example : sameEdges (A [[1], [0], [3], [2]] >>= fun g => greedy g.toI 100) [(0, 1), (2, 3)] = .ok
    true := by decide +kernel

/-- `tests::p3` — greedy.rs:124-135. -/
example : sameEdges (A [[1], [0, 2], [1]] >>= fun g => greedy g.toI 100) [(0, 1)] = .ok true :=
  by decide +kernel

/-- `tests::p4` — greedy.rs:138-150. -/
example : sameEdges (A [[1], [0, 2], [1, 3], [2]] >>= fun g => greedy g.toI 100) [(0, 1), (2, 3)]
    = .ok true := by decide +kernel

/-- `tests::s3` — greedy.rs:153-165. -/
example : sameEdges (A [[1], [0, 2, 3], [1], [1]] >>= fun g => greedy g.toI 100) [(0, 1)] = .ok
    true := by decide +kernel

/-- `tests::c6` — greedy.rs:168-182. -/
example : sameEdges (A [[1, 5], [0, 2], [1, 3], [2, 4], [3, 5], [4, 0]] >>= fun g => greedy g.toI
    100) [(0, 1), (2, 3), (4, 5)] = .ok true := by decide +kernel

/-! ### src/matching/pairing.rs -/

/-- `order::default` — pairing.rs:77-81. -/
example : (Out.ok Pairing.new >>= fun p => .ok p.order) = .ok 0 := by decide +kernel

/-- `order::three_pairs` — pairing.rs:84-92. -/
example : (Out.ok Pairing.new >>= fun p => .ok (p.pair 0 1) >>= fun p => .ok (p.pair 2 3) >>= fun
    p => .ok (p.pair 4 5) >>= fun p => .ok p.order) = .ok 6 := by decide +kernel

/-- `edges::default` — pairing.rs:100-104. -/
example : (Out.ok Pairing.new >>= fun p => .ok p.pairs.isEmpty) = .ok true := by decide +kernel

/-- `edges::pair_unk_unk` — pairing.rs:107-118. -/
example : sameMap (Out.ok Pairing.new >>= fun p => .ok (p.pair 0 1) >>= fun p => .ok (p.pair 2 3))
    [(0, 1), (2, 3), (1, 0), (3, 2)] = .ok true := by decide +kernel

/-- `edges::pair_unk_tid` — pairing.rs:121-131. -/
example : sameMap (Out.ok Pairing.new >>= fun p => .ok (p.pair 1 2) >>= fun p => .ok (p.pair 0 1))
    [(0, 1), (1, 0)] = .ok true := by decide +kernel

/-- `edges::pair_sid_unk` — pairing.rs:134-144. -/
example : sameMap (Out.ok Pairing.new >>= fun p => .ok (p.pair 1 2) >>= fun p => .ok (p.pair 2 3))
    [(2, 3), (3, 2)] = .ok true := by decide +kernel

/-- `edges::pair_sid_tid` — pairing.rs:147-158. -/
example : sameMap (Out.ok Pairing.new >>= fun p => .ok (p.pair 0 1) >>= fun p => .ok (p.pair 2 3)
    >>= fun p => .ok (p.pair 1 2)) [(1, 2), (2, 1)] = .ok true := by decide +kernel

/-- `edges::augment_empty` — pairing.rs:161-172. -/
example : sameMap (Out.ok Pairing.new >>= fun p => p.augment [0, 1, 2, 3]) [(0, 1), (2, 3), (1,
    0), (3, 2)] = .ok true := by decide +kernel

/-- `edges::augment_inner` — pairing.rs:175-187. -/
example : sameMap (Out.ok Pairing.new >>= fun p => .ok (p.pair 1 2) >>= fun p => p.augment [0, 1,
    2, 3]) [(0, 1), (2, 3), (1, 0), (3, 2)] = .ok true := by decide +kernel

/-- `augment::odd_path` — pairing.rs:196-201. -/
example : (Out.ok Pairing.new >>= fun p => p.augment [0, 1, 2, 3, 4]) = .panic
    "even path augmentation" := by decide +kernel

/-- `has_node::default` — pairing.rs:209-213. -/
example : (Out.ok Pairing.new >>= fun p => .ok (p.hasNode 0)) = .ok false := by decide +kernel

/-- `has_node::given_source` — pairing.rs:216-222. -/
example : (Out.ok Pairing.new >>= fun p => .ok (p.pair 0 1) >>= fun p => .ok (p.hasNode 0)) = .ok
    true := by decide +kernel

/-- `has_node::given_target` — pairing.rs:225-231. -/
example : (Out.ok Pairing.new >>= fun p => .ok (p.pair 0 1) >>= fun p => .ok (p.hasNode 1)) = .ok
    true := by decide +kernel

/-- `mate::outside` — pairing.rs:240-244. -/
example : (Out.ok Pairing.new >>= fun p => p.mate 0) = .panic "missing node" := by decide +kernel

/-- `mate::sid` — pairing.rs:247-253. -/
example : (Out.ok Pairing.new >>= fun p => .ok (p.pair 0 1) >>= fun p => p.mate 0) = .ok 1 :=
  by decide +kernel

/-- `mate::tid` — pairing.rs:256-262. -/
example : (Out.ok Pairing.new >>= fun p => .ok (p.pair 0 1) >>= fun p => p.mate 1) = .ok 0 :=
  by decide +kernel

/-! ### src/matching/forest.rs -/

/-- `add_root::duplicate` — forest.rs:101-106. -/
example : (Out.ok Forest.new >>= fun f => f.addRoot 0 >>= fun f => f.addRoot 0) = .panic
    "duplicate node" := by decide +kernel

/-- `add_edge::parent_outside` — forest.rs:115-119. -/
example : (Out.ok Forest.new >>= fun f => f.addEdge 0 1) = .panic "missing parent" :=
  by decide +kernel

/-- `add_edge::duplicate_node` — forest.rs:123-130. -/
example : (Out.ok Forest.new >>= fun f => f.addRoot 0 >>= fun f => f.addRoot 1 >>= fun f =>
    f.addEdge 0 1) = .panic "duplicate node" := by decide +kernel

/-- `path::outside` — forest.rs:138-142. -/
example : (Out.ok Forest.new >>= fun f => f.path 100 0) = .ok none := by decide +kernel

/-- `path::root` — forest.rs:145-151. -/
example : (Out.ok Forest.new >>= fun f => f.addRoot 0 >>= fun f => f.path 100 0) = .ok (some [0]) :=
  by decide +kernel

/-- `path::child` — forest.rs:154-161. -/
example : (Out.ok Forest.new >>= fun f => f.addRoot 0 >>= fun f => f.addEdge 0 1 >>= fun f =>
    f.path 100 1) = .ok (some [1, 0]) := by decide +kernel

/-- `path::grandchild` — forest.rs:164-172. -/
example : (Out.ok Forest.new >>= fun f => f.addRoot 0 >>= fun f => f.addEdge 0 1 >>= fun f =>
    f.addEdge 1 2 >>= fun f => f.path 100 2) = .ok (some [2, 1, 0]) := by decide +kernel

/-- `path::grandchild_with_branching_before` — forest.rs:175-188. -/
example : (Out.ok Forest.new >>= fun f => f.addRoot 0 >>= fun f => f.addEdge 0 1 >>= fun f =>
    f.addEdge 0 2 >>= fun f => f.addEdge 0 3 >>= fun f => f.addEdge 1 4 >>= fun f => f.addEdge 2 5
    >>= fun f => f.addEdge 3 6 >>= fun f => f.addEdge 5 7 >>= fun f => f.path 100 7) = .ok (some
    [7, 5, 2, 0]) := by decide +kernel

/-- `path::grandchild_and_other_path` — forest.rs:191-203. -/
example : (Out.ok Forest.new >>= fun f => f.addRoot 0 >>= fun f => f.addEdge 0 1 >>= fun f =>
    f.addEdge 1 2 >>= fun f => f.addRoot 3 >>= fun f => f.addEdge 3 4 >>= fun f => f.addEdge 3 5
    >>= fun f => f.addEdge 5 6 >>= fun f => f.path 100 2) = .ok (some [2, 1, 0]) :=
  by decide +kernel

/-- `even_nodes::empty` — forest.rs:213-220. -/
example : sameSet (Out.ok Forest.new >>= fun f => f.evenNodes) [] = .ok true :=
  by decide +kernel

/-- `even_nodes::two_root` — forest.rs:223-233. -/
example : sameSet (Out.ok Forest.new >>= fun f => f.addRoot 0 >>= fun f => f.addRoot 1 >>= fun f
    => f.evenNodes) [0, 1] = .ok true := by decide +kernel

/-- `even_nodes::complex_tree` — forest.rs:236-251. -/
example : sameSet (Out.ok Forest.new >>= fun f => f.addRoot 0 >>= fun f => f.addEdge 0 1 >>= fun f
    => f.addEdge 1 2 >>= fun f => f.addRoot 3 >>= fun f => f.addEdge 3 4 >>= fun f => f.addEdge 4
    5 >>= fun f => f.addEdge 4 6 >>= fun f => f.evenNodes) [0, 3, 2, 5, 6] = .ok true :=
  by decide +kernel

/-! ### src/matching/marker.rs -/

/-- `mark_node::duplicate` — marker.rs:65-70. -/
example : (Out.ok Marker.new >>= fun m => m.markNode 0 >>= fun m => m.markNode 0) = .panic
    "node marked twice" := by decide +kernel

/-- `mark_edge::duplicate` — marker.rs:79-84. -/
example : (Out.ok Marker.new >>= fun m => m.markEdge 0 1 >>= fun m => m.markEdge 0 1) = .panic
    "edge marked twice" := by decide +kernel

/-- `mark_edge::duplicate_reverse` — marker.rs:88-93. -/
example : (Out.ok Marker.new >>= fun m => m.markEdge 0 1 >>= fun m => m.markEdge 1 0) = .panic
    "edge marked twice" := by decide +kernel

/-- `has_node::outside` — marker.rs:101-105. -/
example : (Out.ok Marker.new >>= fun m => .ok (m.hasNode 0)) = .ok false := by decide +kernel

/-- `has_node::inside` — marker.rs:108-114. -/
example : (Out.ok Marker.new >>= fun m => m.markNode 0 >>= fun m => .ok (m.hasNode 0)) = .ok true :=
  by decide +kernel

/-- `has_edge::outside` — marker.rs:122-126. -/
example : (Out.ok Marker.new >>= fun m => .ok (m.hasEdge 0 1)) = .ok false := by decide +kernel

/-- `has_edge::inside` — marker.rs:129-135. -/
example : (Out.ok Marker.new >>= fun m => m.markEdge 0 1 >>= fun m => .ok (m.hasEdge 0 1)) = .ok
    true := by decide +kernel

/-- `has_edge::inside_reverse` — marker.rs:138-144. -/
example : (Out.ok Marker.new >>= fun m => m.markEdge 0 1 >>= fun m => .ok (m.hasEdge 1 0)) = .ok
    true := by decide +kernel

/-! ### src/matching/blossom.rs -/

/-- `new::different_roots` — blossom.rs:192-194. -/
example : Blossom.new 1 [2, 1, 0] [5, 4, 3] = .panic "blossom root not found" := by decide +kernel

/-- `new::root_at_right` — blossom.rs:197-201. -/
example : (Blossom.new 1 [2, 1, 0] [5, 4, 0] >>= fun b => .ok b.path) = .ok [2, 1, 0, 4, 5] :=
  by decide +kernel

/-- `new::root_inside` — blossom.rs:204-212. -/
example : (Blossom.new 1 [4, 3, 2, 1, 0] [7, 6, 2, 1, 0] >>= fun b => .ok b.path) = .ok [4, 3, 2,
    6, 7] := by decide +kernel

/-- `contract_graph::butterfly_tid_inside` — blossom.rs:221-231. -/
example : same (E [(0, 1), (1, 2), (2, 0), (3, 2), (3, 1)] >>= fun g => Blossom.new 4 [0] [1, 2,
    0] >>= fun b => b.contractGraph g.toI) (E [(3, 4)]) = .ok true := by decide +kernel

/-- `contract_graph::butterfly_sid_inside` — blossom.rs:234-244. -/
example : same (E [(0, 1), (1, 2), (2, 0), (2, 3), (1, 3)] >>= fun g => Blossom.new 4 [0] [1, 2,
    0] >>= fun b => b.contractGraph g.toI) (E [(3, 4)]) = .ok true := by decide +kernel

/-- `contract_graph::sid_inside` — blossom.rs:247-257. -/
example : same (E [(0, 1), (1, 2), (2, 3), (3, 4), (4, 0), (4, 5), (5, 6)] >>= fun g =>
    Blossom.new 7 [4, 0, 1] [3, 2, 1] >>= fun b => b.contractGraph g.toI) (E [(6, 5), (5, 7)]) =
    .ok true := by decide +kernel

/-- `contract_graph::tid_inside` — blossom.rs:260-270. -/
example : same (E [(0, 1), (1, 2), (2, 3), (3, 4), (4, 0), (5, 4), (5, 6)] >>= fun g =>
    Blossom.new 7 [4, 0, 1] [3, 2, 1] >>= fun b => b.contractGraph g.toI) (E [(6, 5), (5, 7)]) =
    .ok true := by decide +kernel

/-- `contract_graph::example_causes_double_edge` — blossom.rs:273-285. -/
example : same (E [(0, 1), (1, 2), (2, 3), (3, 4), (4, 5), (5, 6), (6, 7), (7, 8), (8, 2), (6, 1)]
    >>= fun g => Blossom.new 9 [8, 2, 3, 4] [7, 6, 5, 4] >>= fun b => b.contractGraph g.toI) (E
    [(0, 1), (1, 9)]) = .ok true := by decide +kernel

/-- `contract_pairing::sid_inside` — blossom.rs:293-306. -/
example : (Blossom.new 5 [2, 1, 0] [4, 3, 0] >>= fun b => .ok ((b.contractPairing (fun l => l)
    ((Pairing.new.pair 7 8).pair 1 6)).eq ((Pairing.new.pair 7 8).pair 5 6))) = .ok true :=
  by decide +kernel

/-- `contract_pairing::tid_inside` — blossom.rs:309-322. -/
example : (Blossom.new 5 [2, 1, 0] [4, 3, 0] >>= fun b => .ok ((b.contractPairing (fun l => l)
    ((Pairing.new.pair 7 8).pair 6 1)).eq ((Pairing.new.pair 7 8).pair 6 5))) = .ok true :=
  by decide +kernel

/-- `contract_pairing::sid_tid_inside` — blossom.rs:325-337. -/
example : (Blossom.new 5 [2, 1, 0] [4, 3, 0] >>= fun b => .ok ((b.contractPairing (fun l => l)
    ((Pairing.new.pair 7 8).pair 2 1)).eq (Pairing.new.pair 7 8))) = .ok true := by decide +kernel

/-- `lift::missing_blossom_id` — blossom.rs:346-356. -/
example : (E [(1, 2), (2, 3), (3, 4), (4, 5), (5, 1)] >>= fun g => Blossom.new 5 [2, 1, 0] [4, 3,
    0] >>= fun b => b.lift 100 [8, 9, 10, 11] g.toI) = .ok [8, 9, 10, 11] := by decide +kernel

/-- `lift::none_blossom_none` — blossom.rs:359-369. -/
example : (E [(0, 1), (1, 2), (2, 3), (3, 4), (4, 0)] >>= fun g => Blossom.new 5 [2, 1, 0] [4, 3,
    0] >>= fun b => b.lift 100 [5] g.toI) = .ok [2, 1, 0, 3, 4] := by decide +kernel

/-- `lift::left_blossom_none` — blossom.rs:372-382. -/
example : (E [(0, 1), (1, 2), (2, 3), (3, 4), (4, 5), (5, 1)] >>= fun g => Blossom.new 6 [1, 2, 3]
    [5, 4, 3] >>= fun b => b.lift 100 [0, 6] g.toI) = .ok [0, 1, 2, 3, 4, 5] := by decide +kernel

/-- `lift::left_blossom_none_rotated_twice` — blossom.rs:385-395. -/
example : (E [(0, 1), (1, 2), (2, 3), (3, 4), (4, 5), (5, 1)] >>= fun g => Blossom.new 6 [2, 3, 4]
    [1, 5, 4] >>= fun b => b.lift 100 [0, 6] g.toI) = .ok [0, 1, 2, 3, 4, 5] := by decide +kernel

/-- `lift::none_blossom_right` — blossom.rs:398-408. -/
example : (E [(0, 1), (1, 2), (2, 3), (3, 4), (4, 5), (5, 1)] >>= fun g => Blossom.new 6 [2, 3, 4]
    [1, 5, 4] >>= fun b => b.lift 100 [6, 0] g.toI) = .ok [2, 3, 4, 5, 1, 0] := by decide +kernel

/-- `lift::left_blossom_right` — blossom.rs:411-421. -/
example : (E [(0, 1), (1, 2), (2, 3), (3, 4), (4, 5), (5, 1), (3, 6)] >>= fun g => Blossom.new 7
    [2, 3, 4] [1, 5, 4] >>= fun b => b.lift 100 [0, 7, 6] g.toI) = .ok [0, 1, 5, 4, 3, 6] :=
  by decide +kernel

/-- `lift::left_blossom_right_shifted` — blossom.rs:424-434. -/
example : (E [(0, 5), (5, 1), (1, 2), (2, 3), (3, 4), (4, 5), (3, 6)] >>= fun g => Blossom.new 7
    [2, 3, 4] [1, 5, 4] >>= fun b => b.lift 100 [0, 7, 6] g.toI) = .ok [0, 5, 1, 2, 3, 6] :=
  by decide +kernel

/-! ### src/matching/maximum_matching.rs -/

/-- `tests::empty` — maximum_matching.rs:146-156. -/
example : sameEdges (Out.ok DefaultGraph.new >>= fun g => maximumMatching pf 200 ords g.toI
    Pairing.new) [] = .ok true := by decide +kernel

/-- `tests::p2` — maximum_matching.rs:159-172. -/
example : sameEdges (A [[1], [0]] >>= fun g => maximumMatching pf 200 ords g.toI Pairing.new) [(0,
    1)] = .ok true := by decide +kernel

/-- `tests::p3` — maximum_matching.rs:175-189. -/
example : sameEdges (A [[1], [0, 2], [1]] >>= fun g => maximumMatching pf 200 ords g.toI
    Pairing.new) [(0, 1)] = .ok true := by decide +kernel

/-- `tests::p4` — maximum_matching.rs:192-207. -/
example : sameEdges (A [[1], [0, 2], [1, 3], [2]] >>= fun g => maximumMatching pf 200 ords g.toI
    Pairing.new) [(0, 1), (2, 3)] = .ok true := by decide +kernel

/-- `tests::p4_from_reversed_edges` — maximum_matching.rs:210-224. -/
example : sameEdges (E [(0, 1), (0, 4), (3, 4)] >>= fun g => maximumMatching pf 200 ords g.toI
    Pairing.new) [(0, 1), (3, 4)] = .ok true := by decide +kernel

/-- `tests::c5` — maximum_matching.rs:227-239. -/
example : sameEdges (E [(0, 1), (1, 2), (2, 3), (3, 4), (4, 0)] >>= fun g => maximumMatching pf
    200 ords g.toI Pairing.new) [(0, 1), (2, 3)] = .ok true := by decide +kernel

/-- `tests::c6` — maximum_matching.rs:242-259. -/
example : sameEdges (A [[1, 5], [0, 2], [1, 3], [2, 4], [3, 5], [4, 0]] >>= fun g =>
    maximumMatching pf 200 ords g.toI Pairing.new) [(0, 1), (2, 3), (4, 5)] = .ok true :=
  by decide +kernel

/-- `tests::acenapthene` — maximum_matching.rs:262-278. -/
example : sameEdges (E [(0, 1), (1, 2), (2, 3), (3, 4), (4, 5), (5, 6), (6, 7), (7, 8), (8, 9),
    (9, 10), (10, 0), (11, 5), (11, 1), (11, 9)] >>= fun g => maximumMatching pf 200 ords g.toI
    Pairing.new) [(0, 10), (1, 11), (2, 3), (4, 5), (6, 7), (8, 9)] = .ok true :=
  by decide +kernel

/-- `tests::p2_p2` — maximum_matching.rs:281-297. -/
example : sameEdges (A [[1], [0], [3], [2]] >>= fun g => maximumMatching pf 200 ords g.toI
    Pairing.new) [(0, 1), (2, 3)] = .ok true := by decide +kernel

/-- `tests::path_through_5_blossom` — maximum_matching.rs:300-319. -/
example : sameEdges (E [(0, 1), (1, 2), (2, 3), (3, 4), (4, 5), (5, 1), (4, 6), (6, 7)] >>= fun g
    => maximumMatching pf 200 ords g.toI (((Pairing.new.pair 2 3).pair 1 5).pair 4 6)) [(0, 1),
    (2, 3), (4, 5), (6, 7)] = .ok true := by decide +kernel

/-- `tests::c5_with_c3_stem_distant_unmatched` — maximum_matching.rs:322-340. -/
example : sameEdges (E [(0, 1), (1, 2), (2, 3), (3, 4), (4, 0), (4, 5), (5, 6), (6, 7)] >>= fun g
    => maximumMatching pf 200 ords g.toI (((Pairing.new.pair 4 0).pair 6 5).pair 3 2)) [(6, 7),
    (4, 5), (0, 1), (2, 3)] = .ok true := by decide +kernel

/-- `tests::yu_zhonge` — maximum_matching.rs:344-375. -/
example : sameEdges (E [(1, 2), (2, 3), (3, 13), (13, 14), (14, 4), (4, 5), (5, 6), (6, 7), (7,
    8), (8, 9), (9, 10), (10, 11), (11, 5), (10, 18), (18, 17), (17, 16), (16, 15), (15, 14), (18,
    19), (19, 20), (20, 21), (21, 22), (22, 16), (4, 3), (13, 12)] >>= fun g => maximumMatching pf
    200 ords g.toI ((((((((((Pairing.new.pair 1 2).pair 3 13).pair 4 14).pair 5 6).pair 7 8).pair
    9 10).pair 15 16).pair 17 18).pair 19 20).pair 21 22)) [(1, 2), (3, 4), (6, 7), (8, 9), (5,
    11), (10, 18), (19, 20), (21, 22), (16, 17), (14, 15), (12, 13)] = .ok true :=
  by decide +kernel

/-- `tests::coronene_6_5` — maximum_matching.rs:378-396. -/
example : sameEdges (E [(6, 7), (7, 8), (8, 9), (9, 10), (10, 11), (11, 12), (12, 13), (13, 14),
    (14, 15), (15, 16), (16, 17), (17, 6), (6, 0), (8, 1), (10, 2), (12, 3), (14, 4), (16, 5), (0,
    1), (1, 2), (2, 3), (3, 4), (4, 5), (5, 8)] >>= fun g => maximumMatching pf 200 ords g.toI
    Pairing.new) [(0, 1), (2, 3), (4, 5), (6, 7), (8, 9), (10, 11), (12, 13), (14, 15), (16, 17)]
    = .ok true := by decide +kernel

/-- `tests::coronene_3_5` — maximum_matching.rs:399-415. -/
example : sameEdges (E [(4, 5), (5, 6), (6, 7), (7, 8), (8, 9), (9, 10), (10, 11), (11, 4), (0,
    4), (1, 6), (2, 8), (3, 10), (0, 1), (1, 2), (2, 3), (3, 0)] >>= fun g => maximumMatching pf
    200 ords g.toI Pairing.new) [(4, 5), (0, 1), (8, 9), (10, 11), (2, 3), (6, 7)] = .ok true :=
  by decide +kernel

/-- `tests::c60` — maximum_matching.rs:418-452. -/
example : sameEdges (E [(29, 30), (30, 43), (43, 44), (44, 55), (55, 29), (29, 28), (31, 30), (43,
    42), (44, 45), (55, 54), (28, 57), (57, 56), (56, 31), (31, 32), (32, 33), (33, 42), (42, 41),
    (41, 40), (40, 45), (45, 46), (46, 47), (47, 54), (54, 26), (26, 27), (27, 28), (57, 7), (56,
    4), (32, 3), (33, 34), (41, 36), (40, 39), (46, 51), (47, 48), (26, 25), (27, 8), (7, 6), (6,
    5), (5, 4), (4, 3), (3, 2), (2, 35), (35, 34), (34, 36), (36, 37), (37, 38), (38, 39), (39,
    51), (51, 50), (50, 49), (49, 48), (48, 25), (25, 24), (24, 9), (9, 8), (8, 7), (6, 11), (5,
    0), (2, 1), (35, 16), (37, 17), (38, 53), (50, 52), (49, 22), (24, 23), (9, 10), (11, 12),
    (12, 0), (0, 1), (1, 15), (15, 16), (16, 17), (17, 18), (18, 53), (53, 52), (52, 21), (21,
    22), (22, 23), (23, 58), (58, 10), (10, 11), (12, 13), (15, 14), (18, 19), (21, 20), (58, 59),
    (13, 14), (14, 19), (19, 20), (20, 59), (59, 13)] >>= fun g => maximumMatching pf 200 ords
    g.toI Pairing.new) [(48, 49), (1, 2), (17, 37), (6, 7), (54, 55), (31, 56), (19, 20), (28,
    57), (26, 27), (22, 23), (29, 30), (4, 5), (50, 51), (34, 35), (24, 25), (10, 11), (43, 44),
    (3, 32), (46, 47), (13, 14), (33, 42), (58, 59), (15, 16), (8, 9), (36, 41), (38, 39), (21,
    52), (40, 45), (0, 12), (18, 53)] = .ok true := by decide +kernel

/-! ### Examples in the documentation -/

/-- README.md:25-52. -/
example : (A [[1], [0, 2], [1]] >>= fun g => Out.ok (g.toI.isEmpty, g.toI.order, g.toI.size, g.toI.nodes)) =
    .ok (false, 3, 2, [0, 1, 2]) := by decide +kernel
example : (A [[1], [0, 2], [1]] >>= fun g => g.toI.neighbors 1 >>= fun ns => g.toI.degree 0 >>= fun d =>
    Out.ok (ns, g.toI.hasNode 4, d)) = .ok ([0, 2], false, 1) := by decide +kernel
example : (A [[1], [0, 2], [1]] >>= fun g => g.toI.hasEdge 1 2 >>= fun h => Out.ok (g.toI.edges, h)) =
    .ok ([(0, 1), (1, 2)], true) := by decide +kernel
example : A [[1]] = .err (.missingNode 1) := by decide +kernel

/-- default_graph.rs:12-29. -/
example : (A [[1], [0, 2], [1]] >>= fun g => Out.ok (g.toI.nodes, (g.addEdge 0 1).2)) = .ok ([0, 1, 2], .err (.duplicateEdge 0 1)) := by
  decide +kernel

/-- components.rs:10-35. -/
example : sameAll (A [[1], [0], []] >>= fun g => Components.all g.toI 100)
    [Out.ok DefaultGraph.new >>= fun g => g.addNodeQ 0 >>= fun g => g.addNodeQ 1 >>= fun g => g.addEdgeQ 0 1,
     Out.ok DefaultGraph.new >>= fun g => g.addNodeQ 2] = .ok true := by decide +kernel

/-- breadth_first.rs:9-32. -/
example : (A [[1, 3], [0, 2], [1, 3], [2, 0]] >>= fun g => BreadthFirst.new g.toI 0 >>= collect (BreadthFirst.next g.toI) 100) =
    .ok [⟨0, 1, false⟩, ⟨0, 3, false⟩, ⟨1, 2, false⟩, ⟨3, 2, true⟩] := by decide +kernel

/-- depth_first.rs:8-32. -/
example : (A [[1, 3], [0, 2], [1, 3], [2, 0]] >>= fun g => DepthFirst.new g.toI 0 >>= collect (DepthFirst.next g.toI) 100) =
    .ok [⟨0, 1, false⟩, ⟨1, 2, false⟩, ⟨2, 3, false⟩, ⟨3, 0, true⟩] := by decide +kernel

/-- greedy.rs:19-40. -/
example : sameEdges (A [[1], [0, 2], [1]] >>= fun g => greedy g.toI 100) [(0, 1)] = .ok true := by decide +kernel

/-- maximum_matching.rs:15-36. -/
example : sameEdges (E [(0, 1), (1, 2), (2, 3)] >>= fun g => maximumMatching pf 200 ords g.toI Pairing.new) [(0, 1), (2, 3)] = .ok true := by
  decide +kernel

end Gamma.Conformance
