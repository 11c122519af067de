# Formal model of rapodaca/gamma_iter (crate `gamma` 0.8.1) in Lean 4

## Layout

| file | content |
| --- | --- |
| `lean/Verif/Model/Core.lean` | outcome of a Rust computation (`Out`), `HashMap`, indexing, `for` loops over iterators |
| `lean/Verif/Model/Graph.lean` | trait `Graph` (`GraphI`), `DefaultGraph` and its conversions |
| `lean/Verif/Model/Traversal.lean` | `Step`, `DepthFirst`, `BreadthFirst`, `TryFrom<DepthFirst>` |
| `lean/Verif/Model/Components.lean` | `components` |
| `lean/Verif/Model/Pairing.lean` | `Pairing` |
| `lean/Verif/Model/Matching.lean` | `greedy`, `Forest`, `Marker`, `Blossom`, `maximum_matching` |
| `lean/Verif/Spec.lean` | specification vocabulary (contract of the trait, Mathlib graph notions, matchings, histories) |
| `lean/Verif/Proofs/*` | helper lemmas |
| `lean/Verif/Props/*` | the property theorems, each with a non-vacuity `example`; findings (negations with witnesses) |
| `lean/Verif/Conformance.lean` | the repository's own unit tests, all 155, and the examples in its documentation, evaluated on the model (tests, not proofs) |
| `AXIOMS.md` | the axioms each property theorem depends on |
| `seeded/LOG.jsonl` | wrong programs tried against the theorems |

## Trusted base

* Lean 4.33.0's kernel; the axioms `propext`, `Classical.choice`, `Quot.sound` (at most; `AXIOMS.md` lists,
  for every property theorem, the output of `#print axioms`). No own axioms, no compiled evaluation.
* Mathlib definitions used in statements: `SimpleGraph`, `Walk`, `IsCycle`, `Reachable`, `dist`, `IsAcyclic`, `Colorable`, lists.
* The reading of the Rust source: every model definition cites the lines it models. The code is not run here.

### What is modelled

All non-test code of `src/graph`, `src/traversal`, `src/selection`, `src/matching`, function by function, including
error returns, every `panic!`/`expect`/`unwrap`/index panic, and `HashMap` iteration order as an adversary.

### Simplifications

* `usize` is `Nat`, except for the one addition that can overflow for realistic inputs, `max_id + 1` in
  `process_blossom`: it is modelled by `Platform` (word size, and overflow checks on/off = debug/release).
  Lengths and indices (`index + 1`, `i + 1`, `path.len()`) are bounded by memory and never overflow.
* `HashSet` is a list used for membership only; `HashMap` is an association list; where the code iterates over a
  map the order is an argument (`HashOrder`) about which only "each entry once" is assumed.
* A borrowed `&G: Graph` is a table of answers (`GraphI`): no interior mutability; boxed iterators are finite lists.
* Loops and recursion run on a step budget (`fuel`); `Out.timeout` means "budget used up". Termination theorems say
  that from some budget on the outcome is a normal one; non-termination theorems say that it is `timeout` for every
  budget. Stack depth and memory are unbounded (the real recursion of `maximum_matching` would overflow the stack in
  the non-terminating case).
* Panic messages are kept without their interpolated numbers. `derive(Debug)`, `derive(PartialEq)` on the private
  `Forest` and `Blossom` and Rust's type system, drops and borrow checks are not modelled.

## Disagreements between documentation and code found while proving (proved as negations with witnesses)

1. `DepthFirst` drops pending stack entries it must not drop (`retain(|e| e.0 != neighbor && e.1 != node)` keeps an
   entry only if *both* ends differ): some reachable nodes are never visited (C24); hence `components` can return
   overlapping, incomplete components (C29).
2. `components` (and so `greedy`) panics on a graph with a self-loop made by `add_edge(v, v)` if a traversal reports it twice
   (C27), which it does if `v` lies on no cycle (C69).
3. A self-loop in an adjacency list is accepted but not listed by `edges()`/`size()` (C06, C07), and makes `==`
   asymmetric (C12).
4. `greedy` is not maximal: a cut step consumes its source (`nodes.insert(sid) && …`) (C31).
5. `Pairing::pair(x, x)` followed by `pair(x, y)` loses the pair (C32).
6. `Blossom::lift_left_blossom_right` picks an arbitrary blossom node adjacent to the left neighbour, and may find
   both directions odd: `maximum_matching` panics ("even path augmentation") on a 6-node graph from the empty
   pairing, and on another from the pairing `greedy` returns,
   and on one with at most three neighbors per node and no cycle shorter than five, as in molecules (C41); it can shrink a matching, uncover nodes (C44) and recurse for ever (C42).
   Whenever it does return, the result is a maximum matching (C39).
7. `process_blossom` numbers a blossom by the largest node id of the *graph* plus one; if the pairing also pairs nodes outside
   the graph (one pairing used for several components), the id may be in use there, and the call panics (C70, C71).

## Plan per property

"Lawful" = the graph obeys the `Graph` contract (`GraphI.Lawful`); `reachable_lawful` proves every reachable
`DefaultGraph` lawful, so every theorem about lawful graphs is one about `DefaultGraph` and about foreign
implementations of the trait.

* C01, C02, C03, C04, C05: invariant `WF` of `DefaultGraph` (index map, node list, adjacency rows in step; rows
  symmetric; edge list consistent) by induction over `Reachable`; the operations' exact effect by case analysis.
* C06, C07: same invariant extended with "edges = adjacency" for histories without adjacency self-loops; witness otherwise.
* C08: refinement of the operations to a log of successful insertions.
* C09, C10, C11: induction over the conversion loops.
* C12: `eq` characterised by counting (injective inclusion of edge lists of equal length); witness for asymmetry.
* C13: corollary of C09, C11, C12.
* C14: direct from the contract.
* C15, C21: measure `|stack| + Σ degree of undiscovered nodes`.
* C16–C20: loop invariant of the queue (frontier, levels, edge accounting), lifted to the whole run.
* C22, C23, C25: loop invariant of the stack.
* C24: witness for the failure; `_partial`: an edge is forgotten only at a node on a cycle that has a parent, a child, a
  neighbor discovered below and the missed neighbor (`Proofs/DfsTame.lean`), hence nothing is missed where nodes on cycles
  have at most three neighbors or no other cycle (and the root satisfies a similar condition); `DepthFirst.Tame` says which paths
  there must be around a node for the traversal to forget one of its edges.
* C26: fold over the steps using C22/C23.
* C47, C48: a second invariant of the stack (`Proofs/DfsOrder.lean`): order of the entries of each source, and the fate of
  every edge (reported, waiting, or forgotten by a `retain`).
* C27–C29: loop over roots using C26; C29 `_partial` where the traversals are tame; witnesses.
* C30, C31: invariant of the greedy fold (a node seen but unpaired was the source of a cut step); C31 `_partial` where
  nodes on cycles have at most two neighbors; witness.
* C50: the three together, on graphs whose cycles are tame.
* C32–C37: `pair` as a pointwise update of the mate function; induction over histories; permutations for hash order.
* C38: every path the search returns is a walk without repetition; `augment` along such a path keeps a matching.
* C39: the search ends with a certificate: a set `A` of nodes and a labelling `c` such that every edge meets `A` or
  joins equal labels, `A` is matched out of `A`, and each label class has at most one node not matched inside it; such a
  certificate implies maximality; it lifts through a blossom contraction.
* C40: a path found implies an improvable matching (lifting a bigger matching of the contracted graph).
* C41, C42, C44: the search never panics (except id overflow) and always ends; bipartite graphs never contract, so paths
  are augmenting and the pairing grows; witnesses for the general failures (non-termination for every budget).
  Beyond that: a run all of whose paths are `Improving` (even, repetition-free, closed under mates, with an unpaired node)
  ends well (`…_good_partial`), and on a graph no two of whose odd cycles share a node all paths are improving
  (`…_odd_cycles_apart_partial`; `Proofs/Arc.lean`, `Apart.lean`, `Good.lean`): there a node outside a blossom has at most
  one neighbor on it, contraction keeps odd cycles apart, so `lift` enters or leaves each blossom at its base and takes the
  direction of the right parity.  Sharing one node between two odd cycles is already enough to break this.
* C43: congruence of the whole search under permutation of the hash order.
* C45: contraction depth is bounded by half the number of nodes plus the number of self-loops (a contraction removes at
  least two nodes or a self-loop); ids grow by one per contraction.
* C46: C30 + C39.
* C49: C39 + C42 + C44 on graphs no two of whose odd cycles share a node.
* C51, C52, C53: the certificate of C39 turned into a Tutte–Berge set, into a vertex cover when the graph is bipartite, and
  compared across two graphs (`Proofs/Berge.lean`, `Props/Optimum.lean`).
* C54: a cut edge closes a cycle with the discovery tree; conversely, without a cut no edge leads back from a discovered
  node except to its parent, so the `retain` forgets nothing, and the steps form a spanning tree (`Proofs/Cycles.lean`).
* C55: C16 and C18 counted.
* C56: the fold of C26 started in the middle of the run (`Proofs/Partial.lean`).
* C57: the first component that meets a connected component starts at its first node, whose nodes are unseen; pairs are never
  undone (`Proofs/GreedyMore.lean`).  The half by counting a vertex cover.
* C58: by C47 and C48 the next step is determined by what is still to be reported, which depends on the adjacency relation
  and the steps so far only, and by the neighbor order, which in the converted graph is the order of the steps
  (`Proofs/Rerun.lean`); witness for the failure when an edge is forgotten.
* C59: a simulation: the two iterators step together, each state the renaming of the other (`Proofs/Rename.lean`).
* C60: the same, on top of the characterisation of `components` (first node not covered yet) and of the fold inside `greedy`.
* C61: the order of the steps (C19) and the distances (C17) bound the level of a target on both sides; a colouring by the parity
  of the distance, and conversely colours alternate along walks.
* C62: induction over the steps: a discovery step adds an edge to a node that is not yet in the tree.
* C63, C64: the crate-internal `Forest` and `Marker`, by induction over the list of calls.
* C65: `contract_graph` and `contract_pairing` as folds with an invariant over the edges seen so far (`Proofs/Contract*.lean`).
* C66: `lift` case by case; the two ways round a cycle from one node to another have lengths that add up to the cycle plus two
  (`Proofs/LiftSpec.lean`); witness for the odd result when an end of the path has two neighbors in the blossom.
* C67: `==` means the same nodes and edges (C12), and what C16–C18 say depends on nothing else; witness for depth-first.
* C68: C55 per connected component, added up over the first node of each (Euler's formula); `components` starts a graph in every
  connected component (C28).
* C69: one more invariant of the depth-first traversal that counts the entries for a self-loop (`Proofs/DfsLoops.lean`); a discovery
  that meets a discovered node closes a cycle; witness for cycles.
* C70: the searches on the two pairings go step by step together (the markers agree on the nodes of g), and contraction keeps the
  relation as long as the blossom's id is not paired outside g (`Proofs/Outside.lean`); witnesses.
* C71: induction over the list of graphs with C70; a matching of the whole splits into matchings of the parts; witness.
* C72: a lockstep simulation of the two runs along an injective renaming that is extended to the new blossom id at each
  contraction (`Proofs/{Relabel,Search,Isomorphic}.lean`); building by renamed calls preserves it; witness with a blossom.
* C73: the visited set is what was discovered; states with the same visited set and stack are bisimilar; witnesses.
* C74: adding the edges of a path from its end to its start, before all others, makes the traversal follow it; what it then
  forgets cannot be reached otherwise; the converse is C24 where cycles are tame.
* C75, C76: the traversals' invariants without the contract of `Graph` (nothing is assumed of `neighbors`, except that the lists it
  answers are finite), followed by induction over the calls; where nothing is left to do, what was discovered is closed under
  `neighbors`. For depth-first traversals without directed cycles: what is dropped from the stack was already discovered.
* C77: as C27, C28, C30, but on graphs whose neighbors need not be mutual.
* C78: by induction over the steps, `greedy`'s set of nodes is the sources of the steps so far and the targets of those taken; a cut
  step is never taken, because its target has been a source (C47).
* C79: the run is followed side by side with a run on the graph that has the pairs as additional edges: pairs are marked before the
  search starts, so the search never looks at them, and both runs reach the same edge between even nodes; contraction keeps the
  relation between the two graphs.  If the first run finds nothing, neither does the second, whose pairing then is maximum (C39).
  Lifting is described without any assumption on edges.  The negative statements are witnesses; for the hang, the run is computed
  with a symbolic budget down to the loop that looks for a neighbor that is not there.
* C80: a second model of `maximum_matching` and `augment` that hands back the pairing also when the run panics or the budget ends
  (`maximumMatchingLeft`, `augmentLeft`), proved to agree with the first; what is left is one of the pairings the run visits, all of
  which are matchings.  The search does not depend on the budget or the hash orders, so a panic repeats.  Points *inside* an
  augmentation (between two calls of `pair`, or of `insert`) are not points at which this code can panic and are not included.
* C81: `maximum_matching` with a tally (`maximumMatchingTally`), proved to agree with the one without; after the recursive call the
  pairing is as large as can be (C39, C79), so the next search finds nothing.  A good path has exactly two unpaired nodes
  (`Proofs/Good.lean`).  `augmenting_path` with a limit on nested calls (`augmentingPathNested`) agrees with the one without, because
  a contraction makes the depth of the graph smaller.
* C82: adjacency after `add_node` and `add_edge` (C01, C02); a matching of the larger graph is one of the smaller but for one pair;
  then C39, C49 and C81.
* C83: a path outside an odd cycle whose ends are next to it is next to one node of it only (else an arc of the cycle closes it to an odd
  cycle that shares two nodes); so the property survives contraction, and of the two ways around a blossom one is even.
  The counterexamples by kernel evaluation, their odd cycles by an enumeration proved complete.
* C84: the search depends on the mates only (C43), so a run that repeats its mates repeats forever; matchings inject into permutations
  of the nodes, so by the pigeonhole principle n! rounds repeat; a run that times out on a large budget made many rounds.
  Rounds are determined by the mates, so a run that returns and one that refuses an odd path exclude each other.
* C85: the search with a count (`augmentingPathLooks`, equal to `augmenting_path` but for the count): every request either marks an
  edge for good, in both directions, or is the last for its node; the nodes so done are even, and the mate of an even node is odd.
  A contraction has no more edges outside the matching, and no more nodes less pairs.
* C86: roots come first in the forest, and once a root is done all its neighbors are odd, so in a clique the node picked is always
  the first unpaired one; a blossom has it as its base and first node, and is the first node of the contracted graph, again one of
  cliques, so the path found there starts at the blossom (or misses its clique) and no rotation is needed to lift it.
* C87: the arguments of C49 and C86 for one component at a time: a contraction changes only the component of its blossom, which stays
  a clique (or apart), and a lifted path is rotated only in that component.
* C88: a search on the whole graph and one on the part are run side by side: the whole's forest restricted to the part is the part's
  forest, until the first path or blossom; a blossom outside the part leaves the part of the contracted graph as it was, and one inside
  makes the contracted part (up to the name of the new node); a lift only looks at the part its path is in. So each round of the whole is
  a round of exactly one part. The runs are then compared round by round, and the counts of rounds added up over the parts.
  With C83 and C90 for the parts this gives the statement on parts of different kinds.
* C89: each call of `next` asks `neighbors` of the node it discovers only, so a trace is one of any graph that agrees there. For the
  breadth-first statements the graph is cut to the nodes discovered (or to those within the distance in question), whose traversal
  ends, and C75 is applied there; distances in the part are those in the graph, since nothing nearer can lie outside.
* C90: a lift can go wrong only if a blossom of three nodes or more lies on a path of four nodes or more of the contracted graph: then
  an edge of the path at the blossom, another edge of the path, and an edge of the blossom off the first make three disjoint edges. No
  three disjoint edges: this passes to the contracted graph, component by component, as the alternatives of C87 do. So every path
  found is of even length and closed under mates.
* C91: count, over a component, the neighbors in excess of two. Each edge that leaves an odd cycle takes one, so contraction does not
  raise the sum, and a blossom with two neighbors left after it is contracted has used up both: what remains is a ring or a chain.
  There a path can be found but no second blossom that matters, so the lifted path enters and leaves the blossom by the only two edges
  there are, and is of even length and closed under mates. A fourth kind of component for C90.
* C92: if two odd cycles of a component differ, an edge of the first at a node off the second, and then an edge of the second, can be
  removed and the component stays connected; but it takes as many edges as nodes, less one, to be connected (Mathlib). So there are
  no two, and C90 applies. The limit by running the model on a witness.
* C93: the unpaired nodes and the paired ones add up to `order()`; a forest without roots has no even node, so the search finds
  nothing and asks for no new id; the rest from C30, C38, C39 and the Tutte–Berge bound (C51) for the empty set.
* C94: `Components.nextLeft` models `next` together with the iterator it leaves behind, also after a panic (everything that can
  panic comes after `visited.insert(root)` and before the component's nodes are inserted).  Induction over what is left of
  `nodes()`; each call from C26/C76's account of converting a traversal.  For graphs without cycles also C24 and C69.
* C95: `BreadthFirst.nextLeft`, `DepthFirst.nextLeft` model `next` together with the iterator it leaves behind (the edge has been
  popped, nothing else has changed).  Simulation: striking the failing targets from the queue or stack gives the state of the
  traversal of the struck graph; a panic leaves it unchanged.  Completeness from C75, C76.  Not modelled: a boxed iterator
  returned by `neighbors` that itself panics halfway.
* C96: no contract is assumed of the graph.  `Components.Outcome` in the specification tells what one call does in terms of the
  depth-first traversal from its root alone; induction over the nodes not yet done, with C76 for the traversal and the loop
  invariant of `TryFrom<DepthFirst>` for the graph built.
* C97: from C96: each graph that `components` yields is a proper one, so its own traversal ends; `greedy` is then a fold of its
  loop body over the steps of these traversals, up to the first panic.
* C98: an edge is removed from the stack only when one of its ends is discovered from the other side; so the undiscovered neighbors of
  the node discovered last are all on top of the stack, and by the order of the stack its first is next. In a complete multipartite
  component a node that is never discovered would be adjacent to the last one discovered or to its source, and be waiting there.
* C99: the stack after each discovery is written out as a function of `n` and the node discovered, and shown to be so by induction; all
  edges are reported, so the component is traversed again in the same way (C58), and C78 says what is paired: the first step from every
  node but 0 and 1 is a cut step back to 0.

The theorems about `maximum_matching` assume `edges()` repeats nothing; the `Graph` contract excludes repetitions except of
self-loops, and every `DefaultGraph` satisfies the assumption (`C38_default_graph`).

Every property is expressible in the model; none is "not applicable".
