{"id": "C01", "title": "add_node appends exactly one new isolated node or changes nothing", "statement": "add_node(id) succeeds exactly when has_node(id) was false. On success id becomes the last item of nodes(), has no neighbors, and nodes, neighbors, edges that were there before are unchanged; otherwise it returns DuplicateNode(id) and no observation of the graph changes.", "quantifier": "every graph reachable by any sequence of DefaultGraph::new / try_from / add_node / add_edge calls, failed calls included, and every id", "why_tests_cant": "a test fixes one history and one id", "anchors": ["src/graph/default_graph.rs: DefaultGraph::add_node"]}
{"id": "C02", "title": "add_edge appends exactly one edge or changes nothing, with a fixed error precedence", "statement": "add_edge(s,t) returns MissingNode(s) if s is absent, else MissingNode(t) if t is absent, else DuplicateEdge(s,t) if has_edge(s,t), else Ok. Only on Ok does anything change: (s,t) becomes the last item of edges(), t the last neighbor of s, s the last neighbor of t; all other neighbor lists and nodes() stay.", "quantifier": "every graph reachable by any sequence of DefaultGraph::new / try_from / add_node / add_edge calls, failed calls included, and every pair of ids", "why_tests_cant": "the property ranges over all histories and both error paths", "anchors": ["src/graph/default_graph.rs: DefaultGraph::add_edge"]}
{"id": "C03", "title": "counts and membership agree with the iterators", "statement": "order() is the number of items of nodes(), size() the number of items of edges(), is_empty() is true exactly when nodes() yields nothing, nodes() never repeats an id, has_node(id) is true exactly for the ids in nodes(), degree(id) is the number of items of neighbors(id).", "quantifier": "every graph reachable by any sequence of DefaultGraph::new / try_from / add_node / add_edge calls, failed calls included", "why_tests_cant": "an internal index, two vectors and an edge list must stay in step over unbounded histories", "anchors": ["src/graph/default_graph.rs: impl Graph for DefaultGraph"]}
{"id": "C04", "title": "the graph is undirected and closed", "statement": "has_edge(s,t) equals has_edge(t,s); t is yielded by neighbors(s) exactly when has_edge(s,t) is Ok(true); every neighbor is a member node; no neighbor other than the node itself is yielded twice.", "quantifier": "every graph reachable by any sequence of DefaultGraph::new / try_from / add_node / add_edge calls, failed calls included, and every pair of ids", "why_tests_cant": "symmetry is a global invariant of the whole history", "anchors": ["src/graph/default_graph.rs: add_edge, neighbors, has_edge, try_from"]}
{"id": "C05", "title": "queries fail exactly on missing ids, with that id, and never panic", "statement": "neighbors(id) and degree(id) return MissingNode(id) exactly when id is not a node; has_edge(s,t) returns MissingNode(s) if s is absent, else MissingNode(t) if t is absent; no query and no add_* call ever panics.", "quantifier": "every graph reachable by any sequence of DefaultGraph::new / try_from / add_node / add_edge calls, failed calls included, and all ids", "why_tests_cant": "needs that the hidden index never points out of range, for every history", "anchors": ["src/graph/default_graph.rs: index_for, neighbors, degree, has_edge"]}
{"id": "C06", "title": "edges() is exactly the has_edge relation, each edge listed once", "statement": "For every pair s,t of nodes, has_edge(s,t) is Ok(true) exactly when edges() contains (s,t) or (t,s), and edges() contains at most one of the two, once.", "quantifier": "every graph reachable by any sequence of DefaultGraph::new / try_from / add_node / add_edge calls, failed calls included; false for graphs converted from an adjacency list with a self-loop", "why_tests_cant": "a global invariant over histories; the failing corner (self-loop in the adjacency conversion) is not in the test-suite", "anchors": ["src/graph/default_graph.rs: edges, has_edge, TryFrom<Vec<Vec<usize>>>"]}
{"id": "C07", "title": "handshake: degrees sum to twice the size", "statement": "The sum of degree(id) over nodes() is 2*size().", "quantifier": "every graph reachable by any sequence of DefaultGraph::new / try_from / add_node / add_edge calls, failed calls included that does not convert an adjacency list containing a self-loop", "why_tests_cant": "sums over graphs of every size", "anchors": ["src/graph/default_graph.rs: degree, size"]}
{"id": "C08", "title": "nodes, edges and neighbors are iterated in the order they were added", "statement": "In a graph built by add_node/add_edge calls, nodes() is the sequence of successfully added ids, edges() the sequence of successfully added edges, and neighbors(v) is the sequence of the other endpoints of the edges at v in the order those edges were added.", "quantifier": "every sequence of add_node and add_edge calls on a new graph (failed calls included)", "why_tests_cant": "refinement to an abstract edge log over all histories", "anchors": ["src/graph/default_graph.rs: DefaultGraph (doc comment), README.md"]}
{"id": "C09", "title": "adjacency conversion accepts exactly the valid adjacency lists and reproduces them", "statement": "DefaultGraph::try_from(adj) is Ok exactly when every entry is a row index, no row repeats an entry and the relation is symmetric. Then nodes() is 0..n, neighbors(i) is row i in order, and edges() lists the pairs i<j with j in row i, by row and then by position.", "quantifier": "every Vec<Vec<usize>>", "why_tests_cant": "all inputs of all sizes", "anchors": ["src/graph/default_graph.rs: TryFrom<Vec<Vec<usize>>>"]}
{"id": "C10", "title": "adjacency conversion reports the first defect", "statement": "When try_from(adj) fails, the error is the one of the first offending entry in row-major order, and for that entry MissingNode(t) takes precedence over DuplicateEdge(s,t), which takes precedence over MissingEdge(t,s). It never panics.", "quantifier": "every Vec<Vec<usize>>", "why_tests_cant": "all malformed inputs", "anchors": ["src/graph/default_graph.rs: TryFrom<Vec<Vec<usize>>>"]}
{"id": "C11", "title": "edge-list conversion", "statement": "DefaultGraph::try_from(edge list) is Ok exactly when no two entries join the same two nodes in either direction; then edges() is the input list and nodes() lists the ids in order of first appearance. Otherwise the error is DuplicateEdge of the first entry that repeats an earlier one.", "quantifier": "every Vec<(usize,usize)>", "why_tests_cant": "all inputs of all sizes", "anchors": ["src/graph/default_graph.rs: TryFrom<Vec<(usize, usize)>>"]}
{"id": "C12", "title": "graph equality is set equality of nodes and undirected edges", "statement": "g == h holds exactly when both have the same node set and the same undirected edges, independent of insertion order and edge direction; hence == is reflexive, symmetric and transitive, and never panics.", "quantifier": "every two graphs reachable without converting an adjacency list containing a self-loop (with one, == is not even symmetric)", "why_tests_cant": "equivalence-relation laws over all pairs and triples", "anchors": ["src/graph/default_graph.rs: PartialEq for DefaultGraph"]}
{"id": "C13", "title": "conversions round-trip", "statement": "For every graph, try_from(edges()) succeeds and gives a graph with the same edges(); it compares equal (==) to the original exactly if every node of the original is an end of some item of edges(). For a graph whose nodes() is 0..n, try_from of the list of its neighbor lists rebuilds an equal graph with the same neighbor order if edges() has no self-loop; otherwise it fails with DuplicateEdge(v, v) for the least v with (v, v) in edges().", "quantifier": "every reachable graph of the stated kind", "why_tests_cant": "inverse laws over all graphs", "anchors": ["src/graph/default_graph.rs: TryFrom impls, PartialEq"]}
{"id": "C14", "title": "a traversal is refused exactly for a missing root", "statement": "DepthFirst::new(g,r) and BreadthFirst::new(g,r) return MissingNode(r) exactly when r is not a node, and Ok otherwise.", "quantifier": "every graph implementation that obeys the Graph contract, every root", "why_tests_cant": "all graphs, all roots", "anchors": ["src/traversal/depth_first.rs: DepthFirst::new", "src/traversal/breadth_first.rs: BreadthFirst::new"]}
{"id": "C15", "title": "breadth-first traversal ends and never panics", "statement": "Iterating BreadthFirst yields finitely many steps, then None for ever, without panicking.", "quantifier": "every graph that obeys the Graph contract (all reachable DefaultGraphs do), every root node", "why_tests_cant": "termination over all graphs", "anchors": ["src/traversal/breadth_first.rs: BreadthFirst::next"]}
{"id": "C16", "title": "breadth-first traversal discovers exactly the reachable nodes, each once", "statement": "The targets of the non-cut steps are pairwise distinct, never the root, and are exactly the other nodes connected to the root.", "quantifier": "every graph that obeys the Graph contract (all reachable DefaultGraphs do), every root node", "why_tests_cant": "completeness over all graphs", "anchors": ["src/traversal/breadth_first.rs: BreadthFirst::next"]}
{"id": "C17", "title": "breadth-first traversal discovers nodes in order of distance, along shortest paths", "statement": "For every non-cut step, the target's distance from the root is one more than the source's; the distances of the discovered nodes never decrease along the traversal; following the steps back from a discovered node gives a shortest path.", "quantifier": "every graph that obeys the Graph contract (all reachable DefaultGraphs do), every root node", "why_tests_cant": "a metric statement about all graphs", "anchors": ["src/traversal/breadth_first.rs: BreadthFirst::next"]}
{"id": "C18", "title": "breadth-first traversal reports every edge of the component exactly once", "statement": "For every two adjacent distinct nodes of the root's component exactly one step joins them, in one direction; every step joins adjacent nodes.", "quantifier": "every graph that obeys the Graph contract (all reachable DefaultGraphs do), every root node", "why_tests_cant": "counting over all graphs", "anchors": ["src/traversal/breadth_first.rs: BreadthFirst::next"]}
{"id": "C19", "title": "breadth-first order is determined by the neighbor order", "statement": "The steps are grouped by source in discovery order, and the targets reported for a source v are, in neighbor order, exactly the neighbors of v that had not been discovered before v (v's parent never appears).", "quantifier": "every graph that obeys the Graph contract (all reachable DefaultGraphs do), every root node", "why_tests_cant": "a full functional specification of the output", "anchors": ["src/traversal/breadth_first.rs: BreadthFirst::next"]}
{"id": "C20", "title": "breadth-first step flags are truthful", "statement": "At every step the source is already discovered (the root, or the target of an earlier non-cut step), and cut is true exactly when the target was already discovered.", "quantifier": "every graph that obeys the Graph contract (all reachable DefaultGraphs do), every root node, every prefix of the traversal", "why_tests_cant": "must hold at every point of every traversal", "anchors": ["src/traversal/breadth_first.rs: BreadthFirst::next", "src/traversal/step.rs"]}
{"id": "C21", "title": "depth-first traversal ends and never panics", "statement": "Iterating DepthFirst yields finitely many steps, then None for ever, without panicking.", "quantifier": "every graph that obeys the Graph contract (all reachable DefaultGraphs do), every root node", "why_tests_cant": "termination over all graphs", "anchors": ["src/traversal/depth_first.rs: DepthFirst::next"]}
{"id": "C22", "title": "depth-first steps are sound", "statement": "Every step joins adjacent nodes, its source is already discovered, cut is true exactly when its target is already discovered; so discovered nodes are distinct and connected to the root.", "quantifier": "every graph that obeys the Graph contract (all reachable DefaultGraphs do), every root node, every prefix of the traversal", "why_tests_cant": "must hold at every point of every traversal", "anchors": ["src/traversal/depth_first.rs: DepthFirst::next"]}
{"id": "C23", "title": "depth-first traversal reports no edge twice", "statement": "For any two distinct nodes at most one step joins them, in either direction; so a self-loop-free graph yields at most size() steps.", "quantifier": "every graph that obeys the Graph contract (all reachable DefaultGraphs do), every root node", "why_tests_cant": "needs the stack pruning to be right on all graphs", "anchors": ["src/traversal/depth_first.rs: DepthFirst::next (retain)"]}
{"id": "C24", "title": "depth-first traversal discovers every reachable node", "statement": "The nodes discovered by DepthFirst are exactly the nodes connected to the root.", "quantifier": "every graph that obeys the Graph contract (all reachable DefaultGraphs do), every root node (false in general: the pruning also drops pending edges to undiscovered nodes; proved where nodes on cycles have at most three neighbors and the root is on no cycle, has at most two neighbors or is not a cut vertex)", "why_tests_cant": "the failure needs a node with a pending neighbor behind a cycle, in the right order", "anchors": ["src/traversal/depth_first.rs: DepthFirst::next (retain)"]}
{"id": "C25", "title": "depth-first order: a traversal only ever extends or backtracks", "statement": "The source of every step is the most recently discovered node or one of its ancestors in the tree of discovery steps.", "quantifier": "every graph that obeys the Graph contract (all reachable DefaultGraphs do), every root node, every prefix of the traversal", "why_tests_cant": "an invariant of the stack over all runs", "anchors": ["src/traversal/depth_first.rs: DepthFirst::next"]}
{"id": "C26", "title": "a depth-first traversal converts to the table and graph of its steps", "statement": "into_table() yields the root (if there is a step) followed by the discovered nodes in discovery order, and the steps' edges in order; DefaultGraph::try_from(traversal) is Ok exactly if no step from a node to itself occurs twice (always so on a graph that lists no self-loop twice), and then has exactly these nodes() and edges(), and lists the neighbors of each node in the order of the steps; otherwise it is Err(DuplicateEdge(v, v)) for such a step.", "quantifier": "every graph that obeys the Graph contract (all reachable DefaultGraphs do), every root node", "why_tests_cant": "needs the no-duplicate-edge invariant of the traversal on all graphs", "anchors": ["src/traversal/depth_first.rs: DepthFirst::into_table", "src/graph/default_graph.rs: TryFrom<DepthFirst>"]}
{"id": "C27", "title": "components ends and never panics", "statement": "components(g) ends after finitely many graphs, and collecting it gives these, or it panics (\"traversal error\") after yielding some; it panics exactly when the depth-first traversal from the first node in none of the graphs yielded so far reports some self-loop twice, so never on a graph that lists no self-loop twice.", "quantifier": "every graph that obeys the Graph contract", "why_tests_cant": "all graphs", "anchors": ["src/selection/components.rs: Components::next"]}
{"id": "C28", "title": "components are connected pieces of the graph and cover it", "statement": "Every component is non-empty, its nodes and edges are nodes and edges of g, any two of its nodes are joined by its own edges, and every node of g is in at least one component; the first nodes of the components are distinct and occur in nodes() order; the first node of each component is the first in nodes() that is in no earlier component; each component has the nodes, edges and neighbor order of a depth-first traversal from its first node.", "quantifier": "every graph that obeys the Graph contract and on which components ends", "why_tests_cant": "all graphs", "anchors": ["src/selection/components.rs: components, Components::next"]}
{"id": "C29", "title": "components are exactly the connected components", "statement": "Two nodes of g are in a common component exactly when they are connected in g, no node is in two components, and each component has all the edges of g between its nodes.", "quantifier": "every graph that obeys the Graph contract and on which components ends (false in general; proved where nodes on cycles have at most three neighbors and the first node of each component is on no cycle, has at most two neighbors or is not a cut vertex)", "why_tests_cant": "the failure needs the depth-first pruning bug", "anchors": ["src/selection/components.rs: components, Components::next"]}
{"id": "C30", "title": "greedy returns a matching", "statement": "greedy(g) returns exactly when components(g) ends (always so on a graph that lists no self-loop twice), and panics otherwise; what it returns is a pairing whose edges() are pairwise disjoint edges of g.", "quantifier": "every graph that obeys the Graph contract, every hash iteration order", "why_tests_cant": "all graphs", "anchors": ["src/matching/greedy.rs: greedy"]}
{"id": "C31", "title": "greedy is maximal", "statement": "No edge of g joins two nodes that greedy(g) leaves unpaired.", "quantifier": "every self-loop-free graph that obeys the Graph contract (false in general; proved where nodes on cycles have at most two neighbors)", "why_tests_cant": "the failure needs a cut step before a tree step", "anchors": ["src/matching/greedy.rs: greedy (nodes.insert(sid) && nodes.insert(tid))"]}
{"id": "C32", "title": "a pairing stays symmetric", "statement": "After any sequence of pair(s,t) and augment(path) calls: has_node(x) implies mate(x) is a paired node different from x whose mate is x.", "quantifier": "every sequence of calls with s != t and paths without repetition, from a new pairing (false if a node is ever paired with itself)", "why_tests_cant": "an invariant over unbounded call sequences", "anchors": ["src/matching/pairing.rs: pair, insert, augment, mate"]}
{"id": "C33", "title": "pair(s,t) does exactly one re-pairing", "statement": "After pair(s,t): mate(s)=t and mate(t)=s; the previous mates of s and t, if different, are unpaired; every other node is as before.", "quantifier": "every symmetric pairing, every s != t", "why_tests_cant": "all states, all evictions", "anchors": ["src/matching/pairing.rs: pair, insert"]}
{"id": "C34", "title": "edges() and order() count the pairs, for every hash iteration order", "statement": "edges() yields each pair exactly once, as (smaller, larger), in any iteration order of the underlying map; order() is twice their number.", "quantifier": "every symmetric pairing, every iteration order", "why_tests_cant": "hash iteration order is random per process", "anchors": ["src/matching/pairing.rs: edges, order"]}
{"id": "C35", "title": "augment flips exactly the path, and refuses odd paths", "statement": "augment(path) panics exactly when the path has odd length. For a path of even length without repeated nodes, mate(path[2i]) becomes path[2i+1] and conversely, former mates off the path become unpaired, other nodes are unaffected; if the path alternates from one unpaired node to another (an augmenting path), exactly the path's nodes are additionally covered and the number of pairs grows by one. If the path moreover contains the mates of its nodes and an unpaired node, no node is uncovered and the number of pairs grows.", "quantifier": "every symmetric pairing, every path", "why_tests_cant": "all paths", "anchors": ["src/matching/pairing.rs: augment"]}
{"id": "C36", "title": "pairing equality is equality of mates", "statement": "p == q exactly when has_node and mate agree everywhere; == is an equivalence relation.", "quantifier": "all reachable pairings", "why_tests_cant": "all pairs of histories", "anchors": ["src/matching/pairing.rs: derive(PartialEq)"]}
{"id": "C37", "title": "mate is defined exactly on paired nodes", "statement": "mate(x) panics exactly when has_node(x) is false; has_node(x) holds exactly when x is an endpoint of some item of edges().", "quantifier": "every symmetric pairing, every id, every iteration order", "why_tests_cant": "all states", "anchors": ["src/matching/pairing.rs: mate, has_node, edges"]}
{"id": "C38", "title": "maximum_matching leaves a matching of the graph", "statement": "If maximum_matching(g, p) returns, p's edges() are pairwise disjoint edges of g and p is symmetric.", "quantifier": "every graph that obeys the Graph contract (self-loops included) and whose edges() repeats nothing, every pairing that is a matching of it, every hash iteration order, every platform word size and overflow mode", "why_tests_cant": "all graphs and starting matchings", "anchors": ["src/matching/maximum_matching.rs: maximum_matching", "src/matching/blossom.rs: lift"]}
{"id": "C39", "title": "maximum_matching leaves a matching of maximum cardinality", "statement": "If maximum_matching(g, p) returns, no matching of g has more edges than p.", "quantifier": "every graph that obeys the Graph contract (self-loops included) and whose edges() repeats nothing, every pairing that is a matching of it, every hash iteration order, every platform word size and overflow mode", "why_tests_cant": "correctness of Edmonds' algorithm with contraction; optimality quantifies over all matchings", "anchors": ["src/matching/maximum_matching.rs: maximum_matching, augmenting_path", "src/matching/blossom.rs: contract_graph, contract_pairing"]}
{"id": "C40", "title": "a maximum matching is left unchanged", "statement": "If p already is a maximum matching of g, maximum_matching(g, p) returns, does not panic, and leaves p as it was.", "quantifier": "every graph that obeys the Graph contract (self-loops included) and whose edges() repeats nothing, every pairing that is a matching of it, every hash iteration order, every platform word size and overflow mode (ids small enough not to overflow)", "why_tests_cant": "needs that every path found proves the matching improvable", "anchors": ["src/matching/maximum_matching.rs: augmenting_path"]}
{"id": "C41", "title": "maximum_matching never panics", "statement": "maximum_matching(g, p) does not panic.", "quantifier": "every graph that obeys the Graph contract (self-loops included) and whose edges() repeats nothing, every pairing that is a matching of it, every hash iteration order, every platform word size and overflow mode (false: some 6-node graphs panic, from the empty pairing and from the greedy one, and some with at most three neighbors per node and no cycle shorter than five; proved: the only possible panics are 'even path augmentation' and id overflow, and there are none on bipartite graphs and on graphs no two of whose odd cycles share a node)", "why_tests_cant": "needs two odd lifts through one blossom", "anchors": ["src/matching/blossom.rs: lift_left_blossom_right", "src/matching/pairing.rs: augment"]}
{"id": "C42", "title": "maximum_matching terminates", "statement": "maximum_matching(g, p) returns after finitely many steps.", "quantifier": "every graph that obeys the Graph contract (self-loops included) and whose edges() repeats nothing, every pairing that is a matching of it, every hash iteration order, every platform word size and overflow mode (false: on some 9-node graphs it recurses for ever from the empty pairing; proved: a single search for a path always ends, and on bipartite graphs and graphs no two of whose odd cycles share a node the whole call does)", "why_tests_cant": "non-termination cannot be observed by a test", "anchors": ["src/matching/maximum_matching.rs: maximum_matching", "src/matching/blossom.rs: lift_left_blossom_right"]}
{"id": "C43", "title": "maximum_matching does not depend on hash iteration order", "statement": "For one graph and equal pairings, any two runs of maximum_matching end the same way with equal pairings, whatever order the hash maps are iterated in.", "quantifier": "every graph that obeys the Graph contract (self-loops included) and whose edges() repeats nothing, every pairing that is a matching of it, every hash iteration order, every platform word size and overflow mode", "why_tests_cant": "hash order is random per process; a test sees a few samples", "anchors": ["src/matching/maximum_matching.rs: augmenting_path", "src/matching/blossom.rs: contract_pairing"]}
{"id": "C44", "title": "improving a matching never uncovers a node", "statement": "Every node paired before maximum_matching is paired after it.", "quantifier": "every graph that obeys the Graph contract (self-loops included) and whose edges() repeats nothing, every pairing that is a matching of it, every hash iteration order, every platform word size and overflow mode (false in general: a 9-node graph loses a paired node; proved for bipartite graphs, graphs no two of whose odd cycles share a node, and runs along improving paths)", "why_tests_cant": "all graphs and starting matchings", "anchors": ["src/matching/maximum_matching.rs: maximum_matching", "src/matching/blossom.rs: lift"]}
{"id": "C45", "title": "ids cannot overflow while there is headroom", "statement": "If the largest node id plus half the number of nodes plus the number of self-looped nodes does not exceed usize::MAX, no run of maximum_matching panics by integer overflow; with a node id equal to usize::MAX and overflow checks on, it can.", "quantifier": "every graph that obeys the Graph contract (self-loops included) and whose edges() repeats nothing, every pairing that is a matching of it, every hash iteration order, every platform word size and overflow mode", "why_tests_cant": "depends on unbounded contraction depth", "anchors": ["src/matching/maximum_matching.rs: process_blossom (max_id + 1)"]}
{"id": "C46", "title": "greedy is a valid start for maximum_matching", "statement": "Running maximum_matching on the pairing returned by greedy(g), if it returns, gives a maximum matching at least as large as the greedy one.", "quantifier": "every graph that obeys the Graph contract, repeats no edge and lists no self-loop twice; every hash order, platform and overflow mode", "why_tests_cant": "all graphs", "anchors": ["src/matching/greedy.rs: greedy", "src/matching/maximum_matching.rs: maximum_matching"]}
{"id": "C47", "title": "depth-first order is determined by the neighbor order", "statement": "The first step goes from the root to its first neighbor; the step right after the discovery of v from u goes from v to its first neighbor other than u, if there is one; the steps from one node follow its neighbor order; and whenever a step is taken, every edge still to be reported starts at an ancestor of its source, and those starting at its source come later in neighbor order.", "quantifier": "every graph that obeys the Graph contract, every root, every point of the traversal", "why_tests_cant": "all graphs, all neighbor orders, all prefixes of the traversal", "anchors": ["src/traversal/depth_first.rs: DepthFirst::new", "src/traversal/depth_first.rs: Iterator::next"]}
{"id": "C48", "title": "which edges a depth-first traversal reports", "statement": "For a discovered node u and another neighbor v of u that u was not discovered from, there is a step from u to v exactly when, before it is reported, no discovery of a node n from p happens with n adjacent to u and p not u, or with n = v adjacent to an already discovered node other than p.", "quantifier": "every graph that obeys the Graph contract, every root, every discovered node and neighbor of it", "why_tests_cant": "all graphs and neighbor orders; depends on the whole history of the traversal", "anchors": ["src/traversal/depth_first.rs: Iterator::next"]}
{"id": "C49", "title": "maximum_matching is totally correct where odd cycles do not meet", "statement": "On a graph no two of whose odd cycles share a node (every bipartite graph, every tree, every odd cycle with trees attached, disjoint odd cycles joined by paths, self-loops allowed), maximum_matching(g, p) returns for every matching p, without a panic, with a maximum matching in which every node that was paired is paired still; so greedy followed by maximum_matching does.", "quantifier": "every graph that obeys the Graph contract, lists each edge once and has no two odd cycles sharing a node; every matching; every hash iteration order; every platform on which ids do not overflow", "why_tests_cant": "all graphs of the class and all matchings; the path is lifted through arbitrarily nested blossoms", "anchors": ["src/matching/maximum_matching.rs: maximum_matching", "src/matching/maximum_matching.rs: augmenting_path", "src/matching/blossom.rs: Blossom::lift", "src/matching/greedy.rs: greedy"]}
{"id": "C50", "title": "depth-first traversal, components and greedy are exact where nodes on cycles have few neighbors", "statement": "If nodes on cycles have at most three neighbors and the first node of each component (in nodes() order) is on no cycle, has at most two neighbors or is not a cut vertex, then components(g) yields exactly the connected components with all their edges, one depth-first traversal from a component's first node discovers the whole component and reports each of its edges exactly once, and greedy(g) leaves an edge uncovered only if an end of it lies on a cycle and has at least three neighbors.", "quantifier": "every self-loop-free graph of that kind that obeys the Graph contract", "why_tests_cant": "all graphs of the class and all neighbor orders", "anchors": ["src/traversal/depth_first.rs: Iterator::next", "src/selection/components.rs: Components::next", "src/matching/greedy.rs: greedy"]}
{"id": "C51", "title": "maximum_matching meets the Tutte–Berge bound", "statement": "For every set A of nodes, every matching leaves at least as many nodes uncovered as the odd components of the graph without A outnumber A; and when maximum_matching(g, p) returns, some set A attains that bound. Hence every node is paired exactly when no deletion of nodes leaves more odd components than nodes were deleted (Tutte).", "quantifier": "every graph that obeys the Graph contract and lists each edge once; every matching p to start from; every hash iteration order and platform; every set of nodes", "why_tests_cant": "all graphs and all node sets; the bound is an existence statement about the run", "anchors": ["src/matching/maximum_matching.rs: maximum_matching", "src/matching/maximum_matching.rs: augmenting_path"]}
{"id": "C52", "title": "on bipartite graphs the matching is as large as a smallest vertex cover", "statement": "On a bipartite graph, when maximum_matching(g, p) returns (and without self-loops it always does), some set of nodes with as many elements as the result has pairs meets every edge, and no smaller set does (Kőnig).", "quantifier": "every bipartite graph that obeys the Graph contract; every matching to start from; every hash iteration order and platform", "why_tests_cant": "all bipartite graphs and all covers", "anchors": ["src/matching/maximum_matching.rs: maximum_matching"]}
{"id": "C53", "title": "the number of pairs maximum_matching finds depends on the graph only", "statement": "Whenever both calls return, maximum_matching finds the same number of pairs on one graph from any two matchings, on graphs that compare equal, and on graphs that differ by a renaming of nodes or the iteration order; at least as many on a graph into which the other embeds; add_edge raises the number by at most one and never lowers it, add_node keeps it.", "quantifier": "every pair of graphs that obey the Graph contract and are so related; every start matching, hash order and platform on both sides; for graphs that compare equal: DefaultGraphs not converted from neighbor lists with a self-loop, for which == is not an equivalence (C12)", "why_tests_cant": "relates two arbitrary runs on two arbitrary graphs", "anchors": ["src/matching/maximum_matching.rs: maximum_matching", "src/graph/default_graph.rs: DefaultGraph::add_edge", "src/graph/default_graph.rs: DefaultGraph::add_node", "src/graph/default_graph.rs: PartialEq for DefaultGraph"]}
{"id": "C54", "title": "cut steps report exactly the cycles", "statement": "In either traversal, a cut step between two different nodes is an edge of some cycle; and the traversal has such a step exactly when the root's component contains a cycle (for the depth-first traversal even though it may miss nodes). Without self-loops a depth-first traversal with no cut step has met the whole component; and a graph is acyclic exactly when every component yielded by components has size() + 1 = order().", "quantifier": "every graph that obeys the Graph contract (the last two clauses: without self-loops), every root node", "why_tests_cant": "all graphs and cycles of any length; the depth-first pruning could lose the evidence", "anchors": ["src/traversal/depth_first.rs: DepthFirst::next", "src/traversal/breadth_first.rs: BreadthFirst::next", "src/selection/components.rs: components"]}
{"id": "C55", "title": "number of breadth-first steps", "statement": "A breadth-first traversal has one discovery step less than the component of the root has nodes and, without self-loops, as many steps as the component has edges; if all nodes are connected to the root: size() steps, order() - 1 of them discoveries.", "quantifier": "every graph that obeys the Graph contract, every root node", "why_tests_cant": "counting over all graphs", "anchors": ["src/traversal/breadth_first.rs: BreadthFirst::next"]}
{"id": "C56", "title": "converting a depth-first traversal that was already advanced", "statement": "After k calls of next, into_table lists exactly the remaining steps and the nodes they discover (after the first remaining source); DefaultGraph::try_from is Ok with exactly those nodes and edges (and neighbors in the order of the steps) if every remaining step hangs on a node already listed, and is refused with MissingNode of the first node that does not otherwise; it never panics and, with no step left, gives the empty graph.", "quantifier": "every graph that obeys the Graph contract and lists no self-loop twice, every root, every number k of calls", "why_tests_cant": "all graphs, and a conversion point between any two calls", "anchors": ["src/traversal/depth_first.rs: into_table", "src/traversal/depth_first.rs: TryFrom<DepthFirst> for DefaultGraph"]}
{"id": "C57", "title": "what greedy guarantees", "statement": "On a graph without self-loops greedy pairs the first node (in nodes() order) of every connected component with its first neighbor, so its result is empty only if the graph has no edge. A matching that covers every edge has at least half as many pairs as any matching; so where nodes on cycles have at most two neighbors, greedy finds at least half as many pairs as maximum_matching.", "quantifier": "every graph without self-loops that obeys the Graph contract; for the last clause every such graph with lone cycles, every start matching of maximum_matching, hash order and platform", "why_tests_cant": "all graphs and all competing matchings", "anchors": ["src/matching/greedy.rs: greedy", "src/matching/maximum_matching.rs: maximum_matching"]}
{"id": "C58", "title": "traversing a converted traversal, or a component, again changes nothing", "statement": "If a depth-first traversal reports every edge at the nodes it discovers (it does where cycles are tame), traversing the graph it converts to from the same root yields exactly the same steps; and components of a yielded component that has all the edges at its nodes yields that component only, with the same nodes, edges and neighbors in the same order. (Without the hypothesis this fails: on an 8-node graph components of the only component yields two overlapping ones.)", "quantifier": "every graph without self-loops that obeys the Graph contract, every root, every yielded component", "why_tests_cant": "compares two whole runs on all graphs; neighbor orders of the two graphs differ", "anchors": ["src/traversal/depth_first.rs: DepthFirst::next", "src/graph/default_graph.rs: TryFrom<DepthFirst>", "src/selection/components.rs: components"]}
{"id": "C59", "title": "traversals depend on the component of the root and the order of neighbors only", "statement": "If a part of another graph is the component of the root under other names (different nodes, different names) and lists the neighbors in the same order, breadth-first and depth-first traversals there yield the same steps under the other names, whatever else the other graph contains. In particular adding a node, or an edge between two nodes not connected to the root, or failing to, changes no traversal from the root.", "quantifier": "every graph that obeys the Graph contract, every root, every renaming, every other graph with the same component; every add_node and add_edge call away from the component", "why_tests_cant": "relates runs on two graphs, for all graphs and renamings", "anchors": ["src/traversal/breadth_first.rs: BreadthFirst::next", "src/traversal/depth_first.rs: DepthFirst::next"]}
{"id": "C60", "title": "components and greedy do not depend on the ids", "statement": "If two graphs differ in the names of the nodes only (nodes() and neighbors() in the same order), components yields the same components under the new names, in the same order and with nodes, neighbors, edges and edge directions in the same order; and greedy finds the same pairs under the new names.", "quantifier": "every two graphs that obey the Graph contract and are renamings of each other, no node listed twice as its own neighbor", "why_tests_cant": "relates runs on two graphs, for all graphs and renamings", "anchors": ["src/selection/components.rs: components", "src/matching/greedy.rs: greedy"]}
{"id": "C61", "title": "breadth-first steps go one level deeper or stay, and decide bipartiteness", "statement": "Every step of a breadth-first traversal that discovers a node goes one further from the root; every other step stays at the same distance or goes one further. The component of the root is bipartite exactly when no step joins two different nodes at the same distance.", "quantifier": "every graph that obeys the Graph contract, every root, every step", "why_tests_cant": "for all graphs; odd cycles of any length", "anchors": ["src/traversal/breadth_first.rs: BreadthFirst::next"]}
{"id": "C62", "title": "the discovery steps of a traversal form a tree", "statement": "The steps of a breadth-first traversal that discover a node are edges of the graph, contain no cycle and connect exactly the nodes of the root's component; distances from the root inside that tree are the distances in the graph. The discovery steps of a depth-first traversal contain no cycle and connect exactly the discovered nodes.", "quantifier": "every graph that obeys the Graph contract, every root", "why_tests_cant": "for all graphs", "anchors": ["src/traversal/breadth_first.rs: BreadthFirst::next", "src/traversal/depth_first.rs: DepthFirst::next"]}
{"id": "C63", "title": "the search forest: calls, paths and parities", "statement": "On a Forest built by any add_root/add_edge calls that did not panic: add_root(x) panics exactly when x was added before; add_edge(q,x) panics exactly when q was not added before or x was; path(x) is None exactly for nodes never added, and otherwise ends and is the list of nodes from x to its root along the edges that were added; even_nodes() lists, in the order they were added, exactly the nodes whose path has an odd number of nodes; later calls change no path.", "quantifier": "every history of add_root/add_edge calls, every node", "why_tests_cant": "all histories; termination of path", "anchors": ["src/matching/forest.rs: Forest::add_root, add_edge, even_nodes, path"]}
{"id": "C64", "title": "the marker remembers exactly what was marked, in both directions", "statement": "After any mark_node/mark_edge calls that did not panic, has_node(x) tells whether x was marked and has_edge(s,t) whether the edge was marked in either direction; marking a marked node or edge (in either direction) panics and marking any other does not.", "quantifier": "every history of mark_node/mark_edge calls, every node and pair", "why_tests_cant": "all histories", "anchors": ["src/matching/marker.rs: Marker"]}
{"id": "C65", "title": "contracting a blossom", "statement": "Blossom::new of two paths panics exactly when they share no node, and otherwise is the first path up to the first shared node and the second path back. contract_graph fails exactly when the id is a node outside the blossom; otherwise it gives the id, then the outside nodes in order, with outside nodes adjacent as before and the id adjacent exactly to the outside neighbors of the blossom, not to itself. If the blossom's nodes are paired among themselves except a base, contract_pairing pairs outside nodes as before and the id with the mate of the base, whatever the hash order, and is a matching of the contracted graph.", "quantifier": "every graph that obeys the Graph contract, every matching, every blossom and id, every hash order", "why_tests_cant": "for all graphs, matchings, blossoms and hash orders", "anchors": ["src/matching/blossom.rs: Blossom::new, contract_graph, contract_pairing"]}
{"id": "C66", "title": "lifting a path out of a blossom", "statement": "lift of a path of the contracted graph returns (no panic, no endless rotation) a path of the original graph: unchanged if it avoids the id, otherwise with nodes of the blossom in the place of the id, all of them in cycle order if the id is at an end. An even path over an odd blossom gives an even path if the id is at an end or its two neighbors on the path have one neighbor in the blossom each; in general it can be odd.", "quantifier": "every graph that obeys the Graph contract, every cycle contracted in it, every path of the contracted graph", "why_tests_cant": "for all graphs, cycles and paths; termination", "anchors": ["src/matching/blossom.rs: Blossom::lift, lift_left_blossom, lift_blossom_right, lift_left_blossom_right"]}
{"id": "C67", "title": "graphs that compare equal behave alike, except in depth-first order", "statement": "If g == h (neither built from an adjacency list with a self-loop), then g and h have the same order, size and number of connected components; breadth-first traversals of g and h from the same node discover the same nodes, at the same distances, and without self-loops report the same edges and the same number of cuts. Depth-first traversals discover the same nodes where cycles are tame; in general they need not, nor need components yield the same number of graphs.", "quantifier": "every pair of graphs built by the public API that compare equal, every root", "why_tests_cant": "all pairs of building histories", "anchors": ["src/graph/default_graph.rs: PartialEq::eq", "src/traversal/breadth_first.rs: BreadthFirst", "src/traversal/depth_first.rs: DepthFirst", "src/selection/components.rs: Components"]}
{"id": "C68", "title": "how many components there are", "statement": "components(g) yields at least as many graphs as g has connected components, and exactly as many where cycles are tame. Without self-loops, order() <= size() + number of connected components, with equality exactly if g has no cycle; and the same holds for the number of graphs components yields, so that size() + components(g).count() == order() tests for a forest, even though the count may be too large on graphs with cycles.", "quantifier": "every graph that obeys the Graph contract", "why_tests_cant": "for all graphs", "anchors": ["src/selection/components.rs: components, Components::next", "src/graph/graph.rs: Graph::order, size"]}
{"id": "C69", "title": "what becomes of self-loops", "statement": "A depth-first traversal reports the self-loop at a discovered node that lies on no cycle exactly as often as the node is listed as its own neighbor (twice if add_edge made it); in general it reports those listed before the first neighbor that was already discovered and is not the one it came from, and none once a newly discovered node is adjacent to the node without having been discovered from it. So components and greedy panic if a node on no cycle is listed twice as its own neighbor, and on a graph without cycles they return exactly if no edge is a self-loop; on a triangle they may return.", "quantifier": "every graph that obeys the Graph contract, every root", "why_tests_cant": "all graphs", "anchors": ["src/traversal/depth_first.rs: DepthFirst::next", "src/selection/components.rs: Components::next", "src/matching/greedy.rs: greedy", "src/graph/default_graph.rs: TryFrom<DepthFirst>, add_edge"]}
{"id": "C70", "title": "a pairing with pairs outside the graph", "statement": "If a pairing pairs the nodes of g along edges of g, and other ids too, but none of the ids that follow the largest node id of g (as many as g can be contracted: half its nodes plus its self-loops), then maximum_matching(g, pairing) ends as it does on the pairs of g alone; if it returns, the pairs among nodes of g are a maximum matching of g, the same as without the other pairs, and the other pairs are as before. On a bipartite graph the other ids may be any. Otherwise the condition is needed: with a pair of the next two ids the call may panic (\"neighbors of v\"), as it may if a node of g is paired with an id outside g.", "quantifier": "every graph that obeys the Graph contract and whose edges() repeats nothing, every such pairing, every hash iteration order, platform and budget; in general the largest node id must be that many below usize::MAX", "why_tests_cant": "all graphs and pairings; the clash of ids depends on the node ids of other graphs", "anchors": ["src/matching/maximum_matching.rs: maximum_matching, augmenting_path, process_blossom", "src/matching/blossom.rs: Blossom::contract_pairing", "src/matching/pairing.rs: Pairing"]}
{"id": "C71", "title": "matching a graph part by part", "statement": "If maximum_matching is called in turn on graphs no two of which have a common node, always with the same pairing, and returns each time, the pairs among the nodes of each graph are in the end a maximum matching of it; if the graphs have between them the edges of g and the pairing was a matching of g, it becomes a maximum matching of g. So components(g), where it yields the connected components, and a new pairing give a maximum matching of g component by component. This holds provided no graph has a node (and the pairing at first no pair) whose id follows the largest node id of a later graph closely enough to be taken for a blossom; it is so if the largest ids increase. Otherwise the call may panic, though maximum_matching(g, ..) returns.", "quantifier": "every list of graphs that obey the Graph contract and whose edges() repeat nothing, every pairing, every hash iteration order, platform and budget", "why_tests_cant": "all graphs and pairings, any number of parts", "anchors": ["src/matching/maximum_matching.rs: maximum_matching, process_blossom", "src/selection/components.rs: components", "src/matching/blossom.rs: Blossom::contract_pairing"]}
{"id": "C72", "title": "maximum_matching does not depend on the ids or on the direction of edges", "statement": "If h is g with other ids (nodes() and neighbors() in the same order) and edges() lists the same edges in the same order, each in either direction, and the pairing q is p with the other ids, then maximum_matching(h, q) ends as maximum_matching(g, p) does, with the same panic message if it panics, and if they return, with the same pairs under their new names; so do greedy followed by maximum_matching. Two DefaultGraphs built by the same add_node and add_edge calls but for the ids, and with the ends of edges exchanged at will, are such a g and h. So a graph on which maximum_matching panics or runs for ever does so under any names.", "quantifier": "every two graphs that obey the Graph contract and whose edges() repeat nothing, every renaming, every pairing that is a matching, all hash iteration orders of either run, every platform with room for the blossoms' ids, every budget", "why_tests_cant": "all graphs, pairings and renamings; the blossoms' ids are made up from the largest id", "anchors": ["src/matching/maximum_matching.rs: maximum_matching, augmenting_path, process_blossom", "src/matching/blossom.rs: Blossom", "src/graph/default_graph.rs: add_node, add_edge"]}
{"id": "C73", "title": "comparing depth-first traversals", "statement": "Comparing two DepthFirst traversals of one graph with ==, however far they were advanced, never panics; if they compare equal, they have discovered the same nodes and will yield the same further steps. New traversals of a graph that equals itself are equal exactly if their roots are, finished ones exactly if they discovered the same nodes, and traversals from one root advanced equally far are equal. Traversals of two graphs that compare equal may compare equal although their next steps differ.", "quantifier": "every graph that obeys the Graph contract, all roots, any number of next calls on either traversal", "why_tests_cant": "all graphs and all pairs of intermediate states", "anchors": ["src/traversal/depth_first.rs: derive(PartialEq) on DepthFirst, next", "src/graph/default_graph.rs: PartialEq for DefaultGraph"]}
{"id": "C74", "title": "which graphs a depth-first traversal discovers completely, however they were built", "statement": "Say a DefaultGraph is always complete from a root if every graph that compares equal to it, in whatever order its nodes and edges were added, is traversed depth-first from that root without missing a connected node. If every node on a cycle other than the root has at most three neighbors, it is always complete exactly if the root is on no cycle or is not a cut vertex. If cycles share no nodes, exactly if in addition cycles are entered at nodes with at most three neighbors. Where a node may be lost by the stated criterion, some graph equal to it with the same nodes() loses it, and components of that graph are wrong if the root is the first node of its component.", "quantifier": "all graphs a program can build (without a self-loop from an adjacency list), all roots, all equal graphs", "why_tests_cant": "all graphs and all insertion orders", "anchors": ["src/traversal/depth_first.rs: DepthFirst::next (retain)", "src/graph/default_graph.rs: add_node, add_edge, PartialEq", "src/selection/components.rs: components, Components::next"]}
{"id": "C75", "title": "breadth-first traversal of any implementation of Graph", "statement": "Whatever a Graph implementation answers (one-way neighbors, repeated neighbors, neighbors that are no nodes, errors): BreadthFirst::new and DepthFirst::new succeed exactly where neighbors() has an answer and otherwise return its error; every step of a breadth-first traversal, however far it went, leads from a discovered node to one of its neighbors with a truthful cut flag, and no node is discovered twice; a call of next fails only if an undiscovered neighbor of a discovered node has no answer to neighbors(), and panics if that is an Err; if the root leads to finitely many nodes the traversal ends exactly if all of them have an answer; and it then discovers exactly the nodes the root leads to, nearest first, each from a node one step nearer, in the order given by neighbors().", "quantifier": "all implementations of Graph, all roots, all numbers of calls", "why_tests_cant": "all graphs, including those outside the documented contract", "anchors": ["src/traversal/breadth_first.rs: BreadthFirst::new, next", "src/traversal/depth_first.rs: DepthFirst::new", "src/graph/graph.rs: Graph"]}
{"id": "C76", "title": "depth-first traversal of any implementation of Graph", "statement": "Whatever a Graph implementation answers: every step of a depth-first traversal leads from the node discovered last or one of its ancestors to one of its neighbors with a truthful cut flag, no node is discovered twice, a step is made at most as often as the neighbor is listed and never in both directions; a call of next fails only at an undiscovered neighbor without an answer, by a panic if that is an Err; if the root leads to finitely many nodes, which all answer, the traversal ends; and if the root leads to no directed cycle of three or more nodes it discovers exactly the nodes the root leads to (with such a cycle it may lose nodes). A depth-first traversal of a directed graph is converted to the graph of its steps unless a node was reported as its own neighbor twice.", "quantifier": "all implementations of Graph, all roots, all numbers of calls", "why_tests_cant": "all graphs, including those outside the documented contract", "anchors": ["src/traversal/depth_first.rs: DepthFirst::next", "src/graph/default_graph.rs: TryFrom<DepthFirst>"]}
{"id": "C77", "title": "components and greedy on directed graphs", "statement": "On a Graph whose neighbors() need not be mutual (but are nodes, and each is listed once): components ends if no node is listed twice as its own neighbor, and otherwise ends or panics; the components cover the nodes, the first node of each is the first one in no earlier component, and each is what a depth-first traversal from its first node gives, and without directed cycles of three or more nodes consists of exactly the nodes its first node leads to; greedy returns exactly if components ends and otherwise panics, and pairs nodes one of which is a neighbor of the other.", "quantifier": "all directed graphs with finitely many nodes", "why_tests_cant": "all graphs, including those outside the documented contract", "anchors": ["src/selection/components.rs", "src/matching/greedy.rs", "src/traversal/depth_first.rs"]}
{"id": "C78", "title": "what greedy pairs, exactly", "statement": "greedy(g) pairs exactly the ends of the steps it takes first come, first served, in the depth-first traversals of the components of g, each from its first node, one after the other: a step is taken if its two ends differ, neither has been the source of an earlier step (taken or not), and neither is the target of an earlier step that was taken. Within a component that shares no node with another: nodes are paired only along steps that discover one of them; a node takes a node it discovers exactly if this is the first of all steps from it and it was not itself taken by the node that discovered it; and a node stays alone exactly if it was not taken, and the first step from it is a cut or there is none.", "quantifier": "all graphs whose neighbors are nodes, mutual or not, on which greedy returns", "why_tests_cant": "all graphs; a test compares the pairing on a few", "anchors": ["src/matching/greedy.rs: greedy", "src/selection/components.rs", "src/traversal/depth_first.rs"]}
{"id": "C79", "title": "maximum_matching with a pairing whose pairs are not all edges of the graph", "statement": "Let the pairing handed to maximum_matching(g, p) pair nodes of g with each other, along edges or not. The call returns no error, and panics only to refuse a path with an odd number of nodes or when ids run out. If it returns, p is again a symmetric pairing of nodes of g, and no choice of disjoint edges of g and pairs of the result has more pairs than it; so it has at least as many pairs as any matching of g, and is a maximum matching if all its pairs are edges. A pairing that is already that large (one that pairs all nodes but one, say) is left as it is. If edges and pairs together can be two-coloured, the call returns, pairs only along edges or as before, and keeps every paired node paired. Otherwise non-edges may stay, new ones may appear, and the call may go on for ever, even on a tree. However it ends, the way it ends and the pairing it leaves do not depend on the iteration order of the hash maps.", "quantifier": "all graphs, all symmetric pairings of their nodes, all hash orders (for the negative statements: a witness, for every number of steps)", "why_tests_cant": "all graphs and pairings, and non-termination", "anchors": ["src/matching/maximum_matching.rs: maximum_matching, augmenting_path", "src/matching/blossom.rs: contract_graph, lift"]}
{"id": "C80", "title": "what maximum_matching leaves of the pairing, however it ends", "statement": "maximum_matching changes the pairing in place. Whether the call returns, panics (and the caller catches the panic) or is stopped at any time, what is left of a matching is a matching of the same graph, and what is left of a symmetric pairing of nodes of g is one again. Where no two odd cycles share a node, every node that was paired still is, so stopping a run loses nothing; elsewhere the run may go through matchings smaller than the one it was given. After a panic (with ids left) what is left is not maximum, and calling again with it panics in the same way and changes nothing. What is left does not depend on the iteration order of the hash maps.", "quantifier": "all graphs, all matchings (or symmetric pairings of nodes), all points at which the run may be stopped, all hash orders", "why_tests_cant": "all crash points of all runs on all graphs", "anchors": ["src/matching/maximum_matching.rs: maximum_matching", "src/matching/pairing.rs: augment, pair"]}
{"id": "C81", "title": "how many searches maximum_matching makes, and how deep its recursions go", "statement": "A call of maximum_matching that returns after k augmentations has searched for an augmenting path exactly 2k+1 times, and k+1 calls of maximum_matching were on the stack at the same time. Where no two odd cycles share a node, k is the number of pairs a maximum matching has more than the one given, so there are at most as many searches as nodes, plus one. A search nests (it calls itself on contracted graphs) at most half as deep as there are nodes, plus one for each self-loop, and not at all on a bipartite graph; complete graphs with 3, 5 and 7 nodes need that depth.", "quantifier": "all graphs, all matchings (for the first sentence: all symmetric pairings of nodes), all runs that return, all hash orders", "why_tests_cant": "bounds for all graphs; a test measures a few", "anchors": ["src/matching/maximum_matching.rs: maximum_matching, augmenting_path, process_blossom"]}
{"id": "C82", "title": "keeping a matching up to date while the graph grows", "statement": "A matching of a DefaultGraph stays one when add_node or add_edge is called, and a maximum matching stays maximum when a node is added. When an edge is added, a maximum matching gets at most one pair larger; it does exactly if the edge joins two different nodes that some maximum matching left alone, and then maximum_matching, called again with the old maximum matching, finds one pair more if it returns, and otherwise as many as before. Where no two odd cycles share a node it does return, after one search (nothing gained) or three searches and one augmentation (one pair gained), and every node that was paired still is.", "quantifier": "all graphs a program can build, all matchings, all nodes and edges added, all hash orders", "why_tests_cant": "all graphs, edges and maximum matchings", "anchors": ["src/graph/default_graph.rs: add_node, add_edge", "src/matching/maximum_matching.rs: maximum_matching"]}
{"id": "C83", "title": "odd rings that touch: maximum_matching does not panic, but may run forever", "statement": "On a graph any two of whose odd cycles share at most one node (unless they have the same nodes), maximum_matching never panics: every path it finds is a path of the graph with an even number of nodes, so it either returns a maximum matching or runs forever. It does run forever on a graph of five triangles, and it may leave a node unpaired that was paired (two triangles that share a node).", "quantifier": "all graphs with that property, all matchings to start from, all hash orders, all budgets", "why_tests_cant": "all graphs and matchings; and a run that never ends cannot be observed", "anchors": ["src/matching/maximum_matching.rs: maximum_matching, augmenting_path, process_blossom", "src/matching/blossom.rs: lift, contract_graph"]}
{"id": "C84", "title": "a call of maximum_matching that never ends goes in circles", "statement": "maximum_matching(g, p), p a matching of g, never ends exactly if it comes to a matching from which one or more rounds of search and augmentation lead back to the same mates. That happens within n! rounds, n the number of nodes; a call that returns makes fewer than n! augmentations, and one budget, computed from g, settles whether the call ends. It panics exactly if some such rounds (fewer than n!) lead to a matching from which the search finds a path with an odd number of nodes, and returns exactly if they lead to a maximum matching, which is what it returns. Which of the three happens is settled by one budget that depends on the graph only (while ids do not run out).", "quantifier": "all graphs, all matchings to start from, all hash orders, all budgets", "why_tests_cant": "never ending cannot be observed; all graphs and matchings", "anchors": ["src/matching/maximum_matching.rs: maximum_matching, augmenting_path", "src/matching/pairing.rs: augment"]}
{"id": "C85", "title": "how often maximum_matching asks for neighbors", "statement": "A search for an augmenting path calls neighbors at most once for each node (of two mates only for one) and once for each edge outside the matching, and the same bound holds for each of the searches nested in it, on contracted graphs, of which there are at most n/2 (plus one for each self-loop), none on a bipartite graph. So a call of maximum_matching that makes s searches asks at most s (n/2 + 1)(n + m) times; where no two odd cycles share a node s is at most n + 1, so that the call takes polynomial time, on bipartite graphs at most (n + 1)(n + m) requests.", "quantifier": "all graphs (n nodes, m edges), all matchings to start from, all hash orders", "why_tests_cant": "a worst case over all graphs, matchings and orders", "anchors": ["src/matching/maximum_matching.rs: maximum_matching, augmenting_path, some_v, some_w, process_blossom", "src/matching/marker.rs: mark_edge, mark_node"]}
{"id": "C86", "title": "maximum_matching on complete graphs", "statement": "On a complete graph, or one each of whose components is complete (with or without self-loops), maximum_matching started from any matching returns, never panics, keeps every paired node paired, gains exactly one pair with every augmentation, and leaves at most one node of each component over: on a complete graph with n nodes, exactly n mod 2 nodes. This holds although the odd cycles of a complete graph overlap in every way, and it needs completeness: on a graph that is complete in three parts the call may panic.", "quantifier": "all graphs whose components are complete, all matchings to start from, all insertion and hash orders", "why_tests_cant": "infinitely many graphs, matchings and orders; nearly complete graphs fail only for some orders of their edges", "anchors": ["src/matching/maximum_matching.rs: maximum_matching, augmenting_path, some_v, process_blossom", "src/matching/blossom.rs: contract_graph, contract_pairing, lift", "src/matching/forest.rs: even_nodes"]}
{"id": "C87", "title": "maximum_matching on graphs with components of different kinds", "statement": "On a graph each of whose components is complete, or else has no two odd cycles that share a node (self-loops aside), maximum_matching started from any matching returns, with a maximum matching; it never panics; every node that was paired stays paired, also if the call is cut short; every augmentation gains exactly one pair; there are at most n + 1 searches, and polynomially many neighbor lookups. Different components may be of different kinds: a misbehaviour cannot come from the way components are interleaved.", "quantifier": "all graphs each of whose components is a clique or has its odd cycles apart, all matchings to start from, all insertion and hash orders, all budgets", "why_tests_cant": "infinitely many graphs, matchings and orders; the search interleaves the components and contracts blossoms in one while the others are half explored", "anchors": ["src/matching/maximum_matching.rs: maximum_matching, augmenting_path, some_v, process_blossom", "src/matching/blossom.rs: contract_graph, contract_pairing, lift", "src/matching/forest.rs: even_nodes"]}
{"id": "C88", "title": "maximum_matching treats separate parts of a graph as if each were alone", "statement": "Let a part of a graph be some of its nodes and the edges at them, such that no edge leads out of the part, added in the same order. If maximum_matching returns on the graph (from some matching), it returns on the part (from the pairs in the part), and the pairs it leaves there are exactly the pairs it leaves in that part of the whole graph, whatever the rest is. Split into parts, the graph is matched if and only if every part is; a panic on the whole is a panic on one of the parts, and a run on the whole that never ends is one on a part that never ends; where every part ends, the whole panics exactly if a part does, and where no part panics, the whole never ends exactly if a part never does. For a graph made by add_node and add_edge calls the part is what the same calls make without those on other ids. Where every part is of the kinds of C90 or has no two odd cycles that share two nodes (C83), the whole never panics, returns with a maximum matching or runs forever, and runs forever exactly if it does on a part that is not of the kinds of C90.", "quantifier": "all graphs whose neighbor lists are in edge order, all ways of splitting them into parts no edge joins, all matchings to start from, all hash orders, all budgets", "why_tests_cant": "infinitely many graphs, splits and matchings; the searches of the parts are interleaved in one forest, blossom ids and contracted graphs differ, and a claim on never ending runs needs a proof", "anchors": ["src/matching/maximum_matching.rs: maximum_matching, augmenting_path, some_v, process_blossom", "src/matching/blossom.rs: new, contract_graph, contract_pairing, lift", "src/matching/forest.rs: even_nodes", "src/graph/default_graph.rs: add_node, add_edge"]}
{"id": "C89", "title": "traversals are lazy, and work on infinite graphs", "statement": "The steps a traversal (breadth-first or depth-first) has yielded depend on neighbors() of the nodes discovered so far only, so an implementation of Graph may compute neighbors on demand. However far a breadth-first traversal went, on a finite or infinite graph, it has discovered nodes in the order of their distance from the root, each from a node one step nearer, and a node only after all that are nearer. It discovers every node the root leads to after finitely many calls of next, if the nodes that are not further away have an answer; and it never ends if the root leads to infinitely many nodes. A depth-first traversal of an infinite graph may never discover a neighbor of the root.", "quantifier": "all implementations of Graph (nothing is assumed of them), all roots, all numbers of calls of next", "why_tests_cant": "a test cannot iterate over an infinite graph, nor compare a traversal with all graphs that agree with its graph where it has been", "anchors": ["src/traversal/breadth_first.rs: new, next", "src/traversal/depth_first.rs: new, next", "src/graph/graph.rs: neighbors"]}
{"id": "C90", "title": "maximum_matching is right on small components, and wherever there are no three disjoint edges", "statement": "On every graph with at most five nodes; more generally on every graph each component of which has at most five nodes, or has no three disjoint edges, or is a clique, or has no two odd cycles that share a node, or is as in C91 (the kinds may be mixed); and from any matching: maximum_matching does not panic, returns, with a maximum matching in which every node that was paired is paired still; every augmentation gains one pair, and there are no more searches than nodes, plus one. There is a graph with six nodes on which every call panics.", "quantifier": "all such graphs (implementations of Graph that keep its contract, edges listed once, ids leave headroom below the largest integer), all matchings, all iteration orders of hash maps", "why_tests_cant": "even with five nodes there are infinitely many graphs (ids, insertion orders, other components), matchings and iteration orders, and components without three disjoint edges may have any number of nodes", "anchors": ["src/matching/maximum_matching.rs: maximum_matching, augmenting_path, process_blossom", "src/matching/blossom.rs: lift, lift_left_blossom_right", "src/matching/pairing.rs: augment"]}
{"id": "C91", "title": "maximum_matching is right on two fused rings, and wherever few nodes have more than two neighbors", "statement": "On every graph in each component of which at most two nodes have three neighbors, or at most one has four, and all others have at most two (two rings fused along a path, sharing a node, or joined by a chain; a ring with one or two tails; a chain with branches; self-loops do not count), and from any matching: maximum_matching does not panic, returns, with a maximum matching in which every node that was paired is paired still; every augmentation gains one pair, and there are no more searches than nodes, plus one. With one neighbor more this fails: in a graph with six nodes, one of which has four neighbors and another three, the call makes four augmentations to find three pairs.", "quantifier": "all such graphs of any size (implementations of Graph that keep its contract, edges listed once, ids leave headroom below the largest integer), all matchings, all iteration orders of hash maps", "why_tests_cant": "rings and chains of any length, all insertion orders, matchings and iteration orders", "anchors": ["src/matching/maximum_matching.rs: maximum_matching, augmenting_path, process_blossom", "src/matching/blossom.rs: lift, lift_left_blossom_right", "src/matching/pairing.rs: augment"]}
{"id": "C92", "title": "maximum_matching is right on components with no more edges than nodes", "statement": "On every connected graph with size() <= order(), and more generally on every graph none of whose components has more edges (self-loops aside) than nodes, and from any matching: maximum_matching does not panic, returns, with a maximum matching in which every node that was paired is paired still; every augmentation gains one pair, and there are no more searches than nodes, plus one. Such a component has at most one odd cycle. One edge more is too many: there is a connected graph with eight nodes and nine edges on which every call panics, with no matching to start with.", "quantifier": "all such graphs of any size (implementations of Graph that keep its contract, edges listed once, ids leave headroom below the largest integer), all matchings, all iteration orders of hash maps", "why_tests_cant": "trees and rings with trees of any size, all insertion orders, matchings and iteration orders", "anchors": ["src/matching/maximum_matching.rs: maximum_matching, augmenting_path, process_blossom", "src/matching/blossom.rs: lift, lift_left_blossom_right", "src/matching/pairing.rs: augment", "src/graph/graph.rs: Graph::size, Graph::order"]}
{"id": "C93", "title": "the documented procedure: greedy first, maximum_matching only if that is not perfect", "statement": "A matching p of g has p.order() <= g.order(), with equality exactly if every node is paired; then it is a maximum matching, and maximum_matching(g, p) leaves it as it is, however large the ids are. What maximum_matching returns has order() equal to g.order() exactly if some matching of g covers every node, so never if g.order() is odd. Calling maximum_matching on greedy(g) only if greedy(g).order() differs from g.order(), as the documentation recommends, gives the same pairing (or panic, or endless run) as calling it always; if it returns, it returns a maximum matching.", "quantifier": "all graphs (implementations of Graph that keep its contract, edges listed once), all matchings, all integer widths, all iteration orders of hash maps", "why_tests_cant": "infinitely many graphs, matchings and iteration orders; that the shortcut never changes the result compares two programs on all of them", "anchors": ["src/matching/greedy.rs: greedy and its documentation", "src/matching/maximum_matching.rs: maximum_matching and its documentation, augmenting_path", "src/matching/pairing.rs: order", "src/graph/graph.rs: Graph::order"]}
{"id": "C94", "title": "components() goes on after a caught panic", "statement": "If a panic of next() on components(g) is caught and the iterator is used again, then it still ends: every further call takes the first node of nodes() that has not been tried and is in no graph yielded so far, and yields the graph a depth-first traversal from there gives, or panics, the latter exactly if that traversal reports a self-loop twice; then every call returns None. Every node is in a yielded graph or has caused a panic. A node from which following neighbors leads to no node listed twice as its own neighbor is in a yielded graph: a panic does no harm elsewhere. In a graph without cycles the components without such a node are yielded, each once and in full, and each node of the others causes one panic. Where nothing panics, catching makes no difference.", "quantifier": "all graphs (for the general statements also directed ones: nodes() lists no node twice, neighbors of nodes are nodes, listed once), all numbers of calls, all points at which a panic can occur", "why_tests_cant": "infinitely many graphs and crash points; the state a panic leaves behind must be right for every continuation", "anchors": ["src/selection/components.rs: Components::next", "src/traversal/depth_first.rs: DepthFirst", "src/graph/default_graph.rs: TryFrom<DepthFirst>"]}
{"id": "C95", "title": "traversals go on after a caught panic", "statement": "On any implementation of Graph whose neighbors() answers or returns an Err: if panics of next() on a BreadthFirst or DepthFirst are caught and the traversal is used again, then the calls that return, return exactly what the same traversal returns of the graph from whose neighbor lists those nodes are struck at which neighbors() fails; all others panic. If the latter traversal ends so does the former; a breadth-first one panics once for each listing of a failing neighbor by a discovered node, a depth-first one at most as often. If the root answers and leads to finitely many nodes, it ends and discovers each node at most once; breadth-first it discovers exactly the nodes to which following neighbors leads by way of nodes that answer, depth-first too if the root leads to no directed cycle of three or more nodes.", "quantifier": "all implementations of Graph whose neighbors() returns, all roots, all numbers of calls, all points at which a panic can occur", "why_tests_cant": "infinitely many graphs and crash points; the state a panic leaves behind must be right for every continuation", "anchors": ["src/traversal/breadth_first.rs: BreadthFirst::next", "src/traversal/depth_first.rs: DepthFirst::next", "src/graph/graph.rs: Graph::neighbors"]}
{"id": "C96", "title": "components on any implementation of Graph", "statement": "On any implementation of Graph, undirected or not, whose neighbors() answers or returns an Err, and each of whose nodes leads to finitely many others: if panics are caught, components() ends, in one way only. Each of its calls has a starting node of its own, in the order of nodes(), that is in no graph yielded before; it panics with 'root not found' exactly if neighbors() of that node is an Err, with 'traversal error' if the depth-first traversal from it reports a step twice, with 'unwrap' if that traversal panics before it does so, and otherwise yields the graph whose nodes are those discovered by the traversal, in order, whose edges are its steps, and whose neighbor lists follow the order of the steps. Every node is in a yielded graph or is the starting node of a call that panics. Without catching, it yields the graphs up to the first panic. If every node that can be reached answers and lists no neighbor twice, there is no panic.", "quantifier": "all implementations of Graph whose neighbors() returns, all numbers of calls, all points at which a panic can occur", "why_tests_cant": "infinitely many graphs, most of them violating the contract of Graph in ways tests do not think of", "anchors": ["src/selection/components.rs: Components::next", "src/traversal/depth_first.rs: DepthFirst", "src/graph/default_graph.rs: TryFrom<DepthFirst>", "src/graph/graph.rs: Graph"]}
{"id": "C97", "title": "greedy on any implementation of Graph", "statement": "On any implementation of Graph, undirected or not, whose neighbors() answers or returns an Err, and each of whose nodes leads to finitely many others: greedy() returns exactly if components() ends without a panic, and otherwise panics just as components() does first. What it returns is a symmetric pairing of different nodes, of which one lists the other as a neighbor, and to which some node of nodes() leads; and it is exactly what taking the steps of the depth-first traversals of the graphs of components(), first come first served, gives. If every node that can be reached answers and lists no neighbor twice, it returns.", "quantifier": "all implementations of Graph whose neighbors() returns", "why_tests_cant": "infinitely many graphs, most of them violating the contract of Graph in ways tests do not think of", "anchors": ["src/matching/greedy.rs: greedy", "src/selection/components.rs: Components::next", "src/matching/pairing.rs: Pairing::pair", "src/graph/graph.rs: Graph"]}
{"id": "C98", "title": "how deep a depth-first traversal goes, and complete multipartite graphs", "statement": "While the node that DepthFirst discovered last has neighbors that are not discovered, the next discovery is made from it, and is that of the first of them in neighbor order, with only cut steps from it in between; a traversal does not end while there is one. Where of two adjacent nodes every connected node is adjacent to one (complete graphs, graphs whose components are complete, complete bipartite graphs), DepthFirst discovers every connected node, and components() yields graphs with exactly the nodes of the connected components, each once. Edges can be missing from them: of a complete graph with five nodes, components() yields a graph with all the nodes that lacks an edge.", "quantifier": "every graph that follows the contract of Graph, every root, every moment of the traversal; every such graph of this kind, in every order of neighbors", "why_tests_cant": "A test fixes one graph and one order of its edges; in general the traversal skips nodes it has put on its stack, and whether any is lost depends on the whole history.", "anchors": ["src/traversal/depth_first.rs: DepthFirst::next", "src/selection/components.rs: Components::next"]}
{"id": "C99", "title": "greedy can find one pair where there are arbitrarily many", "statement": "Of the complete graph with n nodes, n at least 2, made by try_from the adjacency list in which each node lists all others in order, greedy() returns the single pair 0-1, for every n and whatever the iteration order of hash maps, though the graph has matchings of n/2 pairs (and maximum_matching, started from that pair, finds one). The same holds of every implementation of Graph that follows the contract and lists the same nodes and neighbors. DepthFirst from 0 discovers its nodes in order, and goes back from each to every earlier one but its parent.", "quantifier": "every number of nodes, every implementation of Graph that lists these nodes and neighbors, every hash iteration order", "why_tests_cant": "A test settles one number of nodes; that no constant fraction of a maximum matching is guaranteed is a statement about all of them.", "anchors": ["src/matching/greedy.rs: greedy", "src/traversal/depth_first.rs: DepthFirst::next", "src/selection/components.rs: components"]}
