{"id": "C01", "title": "Compact optional values are lossless", "statement": "Packing an optional value into an InRangeOption and reading it back with value() returns exactly the optional value that was packed, for every value except the one sentinel of the type; packing the sentinel itself is refused by a panic in some()/new() instead of silently becoming None.", "quantifier": "every u32/usize/i32/(u32,u32) value and None", "why_tests_cant": "2^32 or more values, and the interesting one is the single sentinel", "anchors": ["engine/src/util/in_range_option.rs: InRangeOption::{new,some,value,NONE}"]}
{"id": "C02", "title": "A node order is a bijection between nodes and ranks", "statement": "If the slice given to NodeOrder::from_node_order (or from_ranks) is a permutation of 0..n then rank(node(r)) = r and node(rank(v)) = v for all ids below n, from_ranks and from_node_order are inverse to each other, and no index panics. If it is not a permutation, the two lookups cannot be mutually inverse.", "quantifier": "every n and every vector of node ids of length n", "why_tests_cant": "n! permutations for every n", "anchors": ["engine/src/datastr/node_order.rs: NodeOrder::{from_node_order,from_ranks,identity,rank,node}"]}
{"id": "C03", "title": "Fast-reset vectors behave like plain vectors", "statement": "For every sequence of writes, reads through both index operators and resets, a TimestampedVector returns exactly what a plain vector would return that is refilled with the default on reset - including after the 32 bit epoch counter wraps around.", "quantifier": "every vector length, every finite history of new/set/index/index_mut/reset, every position of the 32-bit epoch counter", "why_tests_cant": "the wrap-around needs 2^32 resets and stale timestamps from the previous epoch to collide", "anchors": ["engine/src/datastr/timestamped_vector.rs: TimestampedVector::{new,reset,set,index,index_mut}"]}
{"id": "C04", "title": "Fast-reset atomic distance arrays behave like plain vectors", "statement": "For every sequence of get, set and reset calls, AtomicDists returns the last weight written since the last reset and INFINITY otherwise, including across wrap-around of its 32 bit epoch.", "quantifier": "every length and every finite history of get/set/reset", "why_tests_cant": "needs 2^32 resets in combination with stale entries", "anchors": ["engine/src/datastr/timestamped_vector.rs: AtomicDists::{new,reset,set,get}"]}
{"id": "C05", "title": "Clearlist vectors reset completely", "statement": "After any history of in-place modifications a ClearlistVector::reset makes every entry equal to the default again, and between resets reads return the last value written.", "quantifier": "every length, every history of index_mut writes, reads and resets", "why_tests_cant": "unbounded histories", "anchors": ["engine/src/datastr/clearlist_vector.rs: ClearlistVector::{new,reset,index,index_mut}"]}
{"id": "C06", "title": "Bit vectors behave like sets of indices", "statement": "After any history of set/unset/clear operations BitVec::get(i) tells whether i was set and not removed since, count_ones is the number of such indices, and an index at or beyond the length is rejected.", "quantifier": "every length and every finite operation history", "why_tests_cant": "all word boundaries and all histories", "anchors": ["engine/src/datastr/rank_select_map.rs: BitVec::{new,get,set,unset,unset_all_around,clear,set_all,count_ones}"]}
{"id": "C07", "title": "Fast-clear bit vectors behave like sets of indices", "statement": "After any history of set/clear operations FastClearBitVec::get(i) tells whether i was set since the last clear, and a clear removes every element.", "quantifier": "every length and every finite operation history", "why_tests_cant": "unbounded histories; the clear list must cover every dirty word", "anchors": ["engine/src/datastr/rank_select_map.rs: FastClearBitVec::{new,get,set,clear}"]}
{"id": "C08", "title": "Rank queries count the set bits before an index", "statement": "For a compiled RankSelectMap get(i) is Some(k) exactly if bit i was inserted, with k the number of inserted bits below i; len is the number of inserted bits; at_or_next_lower(i) is the dense index of the largest inserted element <= i.", "quantifier": "every bit vector of every length and every index", "why_tests_cant": "every length, block boundary (512), word boundary (64) and bit pattern", "anchors": ["engine/src/datastr/rank_select_map.rs: RankSelectMap::{new,len,at,at_or_next_lower,get,bit_count_entire_range,bit_count_partial_range}"]}
{"id": "C09", "title": "Rank maps can be inverted", "statement": "For every inserted index i, InvertableRankSelectMap::inverse(at(i)) = i, and for every k below len, at(inverse(k)) = k.", "quantifier": "every bit vector and every dense index", "why_tests_cant": "depends on 256-element groups, 512-bit blocks, 64-bit words and a bit-parallel select at once", "anchors": ["engine/src/datastr/rank_select_map.rs: InvertableRankSelectMap::{new,inverse,block_local_index}, int_local_index"]}
{"id": "C10", "title": "The indexed heap is a priority queue with unique ids", "statement": "After any legal history of push, pop, decrease_key, increase_key, update_key and clear, pop returns the pending element with the smallest key, contains_index(id) and get(id) report exactly the pending element with that id, and no element is lost or duplicated.", "quantifier": "every id space, every element type with a total order, every legal history", "why_tests_cant": "heap shapes and position maps over unbounded histories", "anchors": ["engine/src/datastr/index_heap.rs: IndexdMinHeap::{new,push,pop,peek,get,contains_index,decrease_key,increase_key,update_key,clear,move_up_in_tree,move_down_in_tree}"]}
{"id": "C11", "title": "decrease_key and increase_key only move keys in their direction", "statement": "The documentation says decrease_key 'does nothing if the new key is larger' and increase_key 'does nothing if the new key is smaller'.", "quantifier": "every heap state and every new key", "why_tests_cant": "needs the key comparison in both directions on every state", "anchors": ["engine/src/datastr/index_heap.rs: IndexdMinHeap::{decrease_key,increase_key} doc comments"]}
{"id": "C12", "title": "The two-part heap pops in order and remembers what it popped", "statement": "For any history of push and pop, Heap::pop returns the largest element still in the heap part, peek agrees with the next pop, and popped() holds exactly the elements popped (and not yet cleared).", "quantifier": "every totally ordered element type and every history", "why_tests_cant": "unbounded histories, duplicates, heap shapes", "anchors": ["engine/src/datastr/heap.rs: Heap::{push,pop,peek,popped,clear,sift_up,sift_down_to_bottom}"]}
{"id": "C13", "title": "Adjacency arrays represent exactly the given lists", "statement": "Building a graph from adjacency lists and iterating the links of a node returns the list of that node; degree is its length; num_arcs is the total; constructing a graph from inconsistent arrays (first_out not starting at 0, not ending at the number of arcs, weights of another length) is rejected.", "quantifier": "every list of adjacency lists; every triple of arrays", "why_tests_cant": "all sizes, empty lists and malformed arrays", "anchors": ["engine/src/datastr/graph/first_out_graph.rs: FirstOutGraph::{new,from_adjancecy_lists,link_iter,degree,neighbor_edge_indices,edge_indices,link}", "engine/src/util.rs: Vecs"]}
{"id": "C14", "title": "The reversed graph contains exactly the reversed arcs", "statement": "OwnedGraph::reversed returns a valid graph which has an arc from v to u of weight w exactly as often as the input has an arc from u to v of weight w; the variant with edge ids maps every reversed arc to the id of the arc it came from.", "quantifier": "every valid graph", "why_tests_cant": "counting sort with in-place shifting of offsets; all degree sequences", "anchors": ["engine/src/datastr/graph/first_out_graph.rs: BuildReversed for OwnedGraph, ReversedGraphWithEdgeIds"]}
{"id": "C15", "title": "Permuting a graph is an isomorphism", "statement": "OwnedGraph::permutated returns a valid graph with the same arcs after renaming every node to its rank, each node's links sorted by head; hence shortest distances are unchanged up to renaming.", "quantifier": "every valid graph and every node order of matching size", "why_tests_cant": "all graphs times all permutations", "anchors": ["engine/src/datastr/graph/first_out_graph.rs: BuildPermutated for OwnedGraph"]}
{"id": "C16", "title": "Splitting a graph by rank keeps every arc once", "statement": "ch_split puts every arc into exactly one of the two result graphs: arcs to higher ranked nodes into the upward graph in their direction, the others into the downward graph reversed, with weights unchanged.", "quantifier": "every graph and order", "why_tests_cant": "all graphs times all orders", "anchors": ["engine/src/datastr/graph.rs: LinkIterGraph::ch_split (BuildReversed/OwnedGraph::ch_split)"]}
{"id": "C17", "title": "Unifying parallel edges keeps shortest distances", "statement": "After unify_parallel_edges all arcs between the same pair of nodes carry the minimum weight they had before; topology is unchanged, and so are all shortest distances.", "quantifier": "every graph with arbitrary parallel edges", "why_tests_cant": "all multigraphs; the shared cache must be reset per node", "anchors": ["engine/src/datastr/graph.rs: unify_parallel_edges"]}
{"id": "C18", "title": "The line graph contains exactly the allowed turns", "statement": "line_graph has one node per arc and an arc from e to f exactly if f leaves the head of e and the turn cost function allows it, with weight weight(e) + cost(e, f), so walks in the line graph correspond to walks in the graph with turn costs.", "quantifier": "every graph and every turn cost function", "why_tests_cant": "all graphs and functions", "anchors": ["engine/src/datastr/graph.rs: line_graph"]}
{"id": "C19", "title": "Stored vectors load back unchanged", "statement": "Writing a vector of fixed size records and loading it returns the same vector; a file whose length is not a multiple of the record size is rejected; a graph, a node order stored and loaded by its components is unchanged.", "quantifier": "every vector of every length", "why_tests_cant": "all contents and lengths, and truncated files", "anchors": ["engine/src/io.rs: Store::write_to, Load::load_from, Deconstruct, Reconstruct", "engine/src/datastr/node_order.rs: Deconstruct/ReconstructPrepared"]}
{"id": "C20", "title": "Dijkstra returns exact shortest distances", "statement": "For every graph whose weights are at most INFINITY the Dijkstra server returns Some(d) with d the length of a shortest path from source to target if this length is below INFINITY, and None otherwise.", "quantifier": "every valid graph, every pair of nodes", "why_tests_cant": "all graphs; correctness needs an invariant over an unbounded settle loop", "anchors": ["engine/src/algo/dijkstra/generic_dijkstra.rs: DijkstraRun::{query,settle_next_node}", "engine/src/algo/dijkstra/query/dijkstra.rs: Server::distance", "engine/src/algo/dijkstra.rs: DefaultOps"]}
{"id": "C21", "title": "Dijkstra paths are real paths of the reported length", "statement": "Whenever Dijkstra reports a distance, node_path is a walk of the graph from source to target and its total arc weight (taking the used arcs) is the reported distance; edge_path lists the arcs of this walk; path extraction terminates.", "quantifier": "every valid graph, every pair of nodes (including zero weights and parallel arcs)", "why_tests_cant": "needs termination of following parent pointers in every reachable state", "anchors": ["engine/src/algo/dijkstra.rs: DijkstraData::{node_path,edge_path}", "engine/src/algo/dijkstra/query/dijkstra.rs"]}
{"id": "C22", "title": "Query servers carry no state between queries", "statement": "The answer of a query server (Dijkstra, CCH) does not depend on the queries it answered before: any sequence of queries returns what a fresh server returns for each.", "quantifier": "every finite history of queries", "why_tests_cant": "unbounded histories including epoch wrap-around of the distance labels", "anchors": ["engine/src/algo/dijkstra/query/dijkstra.rs: Server::query", "engine/src/algo/customizable_contraction_hierarchy/query.rs: Server::query", "engine/src/algo/customizable_contraction_hierarchy/query/stepped_elimination_tree.rs: reset_distance"]}
{"id": "C23", "title": "Distance arithmetic cannot overflow", "statement": "If all arc weights are at most INFINITY = (2^32-1)/2, no addition performed by Dijkstra, the CCH customization or the CCH query exceeds u32, so nothing wraps or panics.", "quantifier": "every graph with weights at most INFINITY", "why_tests_cant": "overflow needs extreme weights on particular graph shapes", "anchors": ["engine/src/datastr/graph.rs: INFINITY", "engine/src/algo/dijkstra.rs: DefaultOps::link", "engine/src/algo/customizable_contraction_hierarchy/customization.rs", "engine/src/algo/customizable_contraction_hierarchy/query.rs"]}
{"id": "C24", "title": "A one-to-all search computes all distances and Dijkstra ranks are settle positions", "statement": "one_to_all returns for every node its exact shortest distance (INFINITY if there is none below it); nodes are settled in nondecreasing distance order and each at most once.", "quantifier": "every graph, source", "why_tests_cant": "all graphs", "anchors": ["engine/src/algo/dijkstra/query/dijkstra.rs: Server::{one_to_all,ranks}"]}
{"id": "C25", "title": "A* with a feasible potential is exact", "statement": "If the potential never exceeds weight(u,v) + potential(v) along any arc, is zero at the target and is undefined only where the target is unreachable, A* returns the exact shortest distance.", "quantifier": "every graph, every feasible potential, every pair of nodes", "why_tests_cant": "all potentials", "anchors": ["engine/src/algo/a_star.rs: Potential", "engine/src/algo/dijkstra/query/dijkstra.rs: Server::distance", "engine/src/algo/dijkstra/generic_dijkstra.rs: next_step_with_potential"]}
{"id": "C26", "title": "Bidirectional Dijkstra is exact", "statement": "The bidirectional Dijkstra server returns Some(d) with d the exact shortest distance below INFINITY, otherwise None, for both direction choosing strategies; with a cap, any distance below the cap is still exact.", "quantifier": "every graph, every pair, every cap, both strategies", "why_tests_cant": "the stopping criterion interacts with the interleaving of the two searches on every graph", "anchors": ["engine/src/algo/dijkstra/query/bidirectional_dijkstra.rs: Server::distance_with_cap", "engine/src/algo/a_star.rs: BiDirZeroPot::stop", "engine/src/algo/dijkstra.rs: ChooseMinKeyDir, AlternatingDirs"]}
{"id": "C27", "title": "Landmark (ALT) potentials are feasible", "statement": "The potential computed from landmark distances never exceeds the true distance to the target and satisfies the triangle inequality along every arc, also when landmarks cannot reach or be reached from some nodes.", "quantifier": "every graph, landmark set, target and node", "why_tests_cant": "saturating arithmetic on INFINITY for all reachability patterns", "anchors": ["engine/src/algo/alt.rs: ALTPotential::potential, ALTPotData::new"]}
{"id": "C28", "title": "CCH contraction yields a chordal supergraph", "statement": "The contracted CCH graph contains every input edge (as an upward edge between ranks), has sorted duplicate-free upward neighbours, and for any two upward neighbours u < v of a node there is an upward edge from u to v.", "quantifier": "every graph and every node order", "why_tests_cant": "all graphs times all orders", "anchors": ["engine/src/algo/customizable_contraction_hierarchy/contraction.rs: ContractionGraph::{new,contract}, Node::merge_neighbors", "engine/src/algo/customizable_contraction_hierarchy/mod.rs: contract"]}
{"id": "C29", "title": "Elimination tree ancestors contain all upward reachable nodes", "statement": "Every upward neighbour of a node is an ancestor of the node in the elimination tree, parents have larger ids, so walking to the root visits every node reachable by upward edges in increasing order and terminates.", "quantifier": "every contracted CCH graph", "why_tests_cant": "all graphs and orders", "anchors": ["engine/src/algo/customizable_contraction_hierarchy/mod.rs: CCH::build_elimination_tree"]}
{"id": "C30", "title": "Basic customization preserves all shortest distances", "statement": "After customize, for every metric, each CCH edge weight (below INFINITY) is the length of a walk in the input graph, no edge is longer than a detour over a lower ranked node, no original arc is cheaper than its CCH edge; hence the minimum over up-down paths in the CCH equals the shortest distance in the input graph.", "quantifier": "every graph, order and metric", "why_tests_cant": "all metrics on all topologies", "anchors": ["engine/src/algo/customizable_contraction_hierarchy/customization.rs: customize, prepare_weights, customize_basic"]}
{"id": "C31", "title": "CCH queries are exact", "statement": "The CCH query server returns Some(d) with d the exact shortest distance in the input graph with the customized metric if it is below INFINITY and None otherwise, for every pair of nodes.", "quantifier": "every graph, order, metric and pair of nodes", "why_tests_cant": "all inputs; pruning in the elimination tree walk must never cut off the optimum", "anchors": ["engine/src/algo/customizable_contraction_hierarchy/query.rs: Server::{query,distance}", "engine/src/algo/customizable_contraction_hierarchy/query/stepped_elimination_tree.rs"]}
{"id": "C32", "title": "CCH paths are real paths of the reported length", "statement": "Whenever the CCH server reports a distance, node_path returns a walk of the input graph from source to target whose length is the reported distance, and unpacking terminates.", "quantifier": "every graph, order, metric and pair of nodes", "why_tests_cant": "recursive shortcut unpacking over every customization", "anchors": ["engine/src/algo/customizable_contraction_hierarchy/query.rs: Server::{path,unpack_path}", "engine/src/algo/customizable_contraction_hierarchy/mod.rs: Customized::unpack_outgoing/unpack_incoming"]}
{"id": "C33", "title": "Customization does not depend on the thread schedule", "statement": "Parallel basic customization, for every separator tree accepted by the validation, every thread count and every interleaving of the cell tasks, computes exactly the weights of the sequential customization.", "quantifier": "every schedule of the tasks, every number of threads, every CCH", "why_tests_cant": "schedules are not controllable by tests", "anchors": ["engine/src/algo/customizable_contraction_hierarchy/customization/parallelization.rs: SeperatorBasedParallelCustomization::customize_tree", "engine/src/algo/customizable_contraction_hierarchy/customization.rs: customize_basic"]}
{"id": "C34", "title": "Perfect customization yields exact edge weights and keeps queries exact", "statement": "After perfect customization every CCH edge weight equals the shortest distance between its end points (if below INFINITY), and dropping the edges whose weight was improved does not change the distance of any query.", "quantifier": "every graph, order and metric", "why_tests_cant": "all metrics on all topologies", "anchors": ["engine/src/algo/customizable_contraction_hierarchy/customization.rs: customize_perfect_without_rebuild, rebuild_customized_perfect"]}
{"id": "C35", "title": "Perfect customization rebuild is independent of the number of threads", "statement": "rebuild_customized_perfect returns the same graphs whether it is run sequentially or split into any number of chunks, for every graph.", "quantifier": "every CCH, every set of removed edges and every number of threads", "why_tests_cant": "chunk boundaries depend on thread count and edge count", "anchors": ["engine/src/algo/customizable_contraction_hierarchy/customization.rs: rebuild_customized_perfect"]}
{"id": "C36", "title": "Edges that are infinite under every metric can be removed", "statement": "Removing the CCH edges reported by always_infinity (edges no metric can make finite) keeps all query results for every metric.", "quantifier": "every graph, order and every metric", "why_tests_cant": "all metrics at once", "anchors": ["engine/src/algo/customizable_contraction_hierarchy/mod.rs: CCH::{remove_always_infinity,to_directed_cch}", "engine/src/algo/customizable_contraction_hierarchy/customization.rs: always_infinity"]}
{"id": "C37", "title": "Separator trees partition the nodes and reordering gives a valid parallelizable order", "statement": "The separator tree built from an elimination tree contains every node exactly once; orders produced by reordering are permutations of the nodes.", "quantifier": "every elimination tree", "why_tests_cant": "all trees", "anchors": ["engine/src/algo/customizable_contraction_hierarchy/separator_decomposition.rs: SeparatorTree::new", "engine/src/algo/customizable_contraction_hierarchy/reorder.rs: reorder_for_seperator_based_customization, reorder_bfs"]}
{"id": "C38", "title": "CH preprocessing preserves distances and CH queries are exact", "statement": "For every node order, contracting all nodes and running the bidirectional upward search returns the exact shortest distance of the input graph or None.", "quantifier": "every graph, order and pair of nodes", "why_tests_cant": "all graphs, orders; witness search with pruning", "anchors": ["engine/src/algo/contraction_hierarchy/mod.rs: ContractionGraph, contract", "engine/src/algo/contraction_hierarchy/query.rs: Server::distance"]}
{"id": "C39", "title": "CH paths are real paths", "statement": "Whenever the CH server reports a distance, node_path returns a walk of the input graph from source to target of that length.", "quantifier": "every graph, order and pair of nodes", "why_tests_cant": "all inputs", "anchors": ["engine/src/algo/contraction_hierarchy/query.rs: Server::path"]}
{"id": "C40", "title": "CCH potentials are exact distances", "statement": "After CCHPotential::init(t), potential(v) is the exact shortest distance from v to t in the lower bound graph if below INFINITY, otherwise None, in whatever order nodes are asked.", "quantifier": "every graph, order, metric, target and every sequence of potential calls", "why_tests_cant": "lazy memoisation over every query order", "anchors": ["engine/src/algo/ch_potentials.rs: CCHPotential::{init_with_cch_rank,potential_with_cch_rank}"]}
{"id": "C41", "title": "Nearest neighbour queries return the k closest targets", "statement": "The Dijkstra nearest neighbour query returns min(k, number of reachable targets) distinct targets with their exact distances and no other target is closer than a returned one.", "quantifier": "every graph, target set, k and source", "why_tests_cant": "all inputs, ties, k = 0", "anchors": ["engine/src/algo/dijkstra/query/nearest_neighbor.rs: DijkstraNearestNeighbor::query", "engine/src/algo/customizable_contraction_hierarchy/query/nearest_neighbor.rs"]}
{"id": "C42", "title": "RPHAST returns exact distances to the selected targets", "statement": "After select(T) and query(s), distance(t) is the exact shortest distance from s to t for every t in T (or at least INFINITY if there is none).", "quantifier": "every graph with a correct hierarchy, every T, s", "why_tests_cant": "all inputs", "anchors": ["engine/src/algo/rphast.rs: RPHAST::select, RPHASTQuery::query, RPHASTResult::distance"]}
{"id": "C43", "title": "Hub labels answer exact distances", "statement": "HubLabels::dist returns the exact shortest distance for every pair, and pruning labels never removes a needed hub.", "quantifier": "every hierarchy", "why_tests_cant": "all inputs", "anchors": ["engine/src/algo/hl.rs: HubLabels::{new,dist,best_hub}"]}
{"id": "C44", "title": "Time-dependent travel times obey FIFO and periodicity", "statement": "For a valid piecewise linear function, eval is periodic, within the minimum and maximum of the breakpoints, equals the breakpoint value at breakpoints, and leaving later never arrives earlier.", "quantifier": "every valid function and all departure times", "why_tests_cant": "all functions, integer rounding at all points", "anchors": ["engine/src/datastr/graph/time_dependent/piecewise_linear_function.rs: PiecewiseLinearFunction::{eval,evaluate,lower_bound,upper_bound}", "engine/src/datastr/graph/time_dependent/geometry/line.rs: interpolate_at_in_range"]}
{"id": "C45", "title": "Range bounds of travel time functions are bounds", "statement": "lower_bound_in_range(r) is at most, and upper_bound_in_range(r) is at least, eval(t) for every t in r, and both are attained values.", "quantifier": "every valid function and range", "why_tests_cant": "all functions and ranges incl. period boundaries", "anchors": ["engine/src/datastr/graph/time_dependent/piecewise_linear_function.rs: {lower,upper}_bound_in_{range,included}"]}
{"id": "C46", "title": "Live traffic keeps FIFO", "statement": "Combining predicted travel times with a live value (LiveTDGraph::eval, PessimisticLiveTDGraph::eval) keeps the FIFO property, and the upper bound reported by PessimisticLiveTDGraph::upper_bound is never exceeded after `now`.", "quantifier": "every valid function, live value, switch time and departure", "why_tests_cant": "all combinations of case distinctions", "anchors": ["engine/src/datastr/graph/time_dependent/graph.rs: LiveTDGraph::eval, PessimisticLiveTDGraph::{eval,upper_bound,live_lower_bound}"]}
{"id": "C47", "title": "Time-dependent Dijkstra returns earliest arrivals", "statement": "With FIFO travel time functions, time-dependent Dijkstra returns the earliest arrival over all paths departing at the given time.", "quantifier": "every FIFO graph, departure and pair of nodes", "why_tests_cant": "all inputs", "anchors": ["engine/src/algo/dijkstra/query/td_dijkstra.rs: TDDijkstraOps", "engine/src/algo/dijkstra/generic_dijkstra.rs"]}
{"id": "C48", "title": "Edge to tail lookup is exact", "statement": "LinkIdToTailMapper::link_id_to_tail(e) and link_id_to_tail(first_out, e) return the node whose outgoing range contains e, also in the presence of nodes without outgoing arcs.", "quantifier": "every graph and every edge id", "why_tests_cant": "all degree sequences with runs of degree zero nodes", "anchors": ["engine/src/datastr/graph/link_id_to_tail_mapper.rs: LinkIdToTailMapper, link_id_to_tail"]}
{"id": "C49", "title": "Metric merging is a deterministic partition", "statement": "merge returns a partition of the metric indices into at most target_size non-empty groups (for target_size >= 1), and the result does not depend on how the comparison tasks are scheduled.", "quantifier": "every list of metrics, every target size, every schedule", "why_tests_cant": "schedules are not controllable by tests", "anchors": ["engine/src/algo/metric_merging.rs: merge"]}
{"id": "C50", "title": "filter_covered keeps exactly the minimal ranges", "statement": "filter_covered removes a range exactly if it contains another range of the list (keeping one of each equal class as documented by the tests) and returns the kept ranges sorted.", "quantifier": "every list of ranges", "why_tests_cant": "all overlap patterns", "anchors": ["engine/src/algo/minimal_nonshortest_subpaths.rs: filter_covered"]}
{"id": "C51", "title": "Merging iterators are order preserving and lossless", "statement": "Interleave yields all elements of both inputs, each in order; the coordinated sweep over two sorted sequences yields every key once, with the entries of both sides exactly if both contain the key.", "quantifier": "every pair of sequences", "why_tests_cant": "all lengths and overlap patterns", "anchors": ["engine/src/util.rs: Interleave, CoordinateSweepIter"]}
{"id": "C52", "title": "Renaming queries and potentials is transparent", "statement": "A potential wrapped for a permuted graph or recycled for the same target returns the value of the wrapped potential for the original node; permuting a query maps both ends.", "quantifier": "every order, potential and history of init calls", "why_tests_cant": "all histories", "anchors": ["engine/src/algo/a_star.rs: PotentialForPermutated, RecyclingPotential", "engine/src/algo/mod.rs: Query::permutate"]}
{"id": "C53", "title": "Fixing the order keeps the shortcuts and always passes the validation for parallel customization", "statement": "fix_order_and_build succeeds exactly when building with the given order succeeds, builds a CCH for a permutation of the nodes that connects exactly the same pairs of nodes, and (for a non-empty graph) the separator tree of the result passes validate_for_parallelization, whatever the unstable sort does with equally large cells.", "quantifier": "every graph, every order, every permitted result of the unstable sort", "why_tests_cant": "all graphs and orders; the sort is unstable", "anchors": ["engine/src/algo/customizable_contraction_hierarchy/mod.rs: CCH::fix_order_and_build", "engine/src/algo/customizable_contraction_hierarchy/reorder.rs: reorder_for_seperator_based_customization", "engine/src/algo/customizable_contraction_hierarchy/separator_decomposition.rs: validate_for_parallelization"]}
{"id": "C54", "title": "An interrupted save is never mistaken for other data", "statement": "If storing a vector is interrupted at any point, loading gives the old contents, fails, or returns an initial part of the vector. If storing a graph to a directory without older graph files is interrupted at any point, loading either fails or returns exactly this graph.", "quantifier": "every vector and graph, every crash point, including any part of the bytes of a single write", "why_tests_cant": "crash points between and within writes cannot be enumerated by tests", "anchors": ["engine/src/io.rs: Store::write_to, Load::load_from, Deconstruct::deconstruct_to", "engine/src/datastr/graph/first_out_graph.rs: FirstOutGraph::new, Deconstruct, Reconstruct"]}
{"id": "C55", "title": "Bidirectional A* is exact", "statement": "With consistent forward and backward potentials the bidirectional server returns Some(d) with d the exact shortest distance below INFINITY and otherwise None, for the symmetric and the average potential, with and without improved pruning, and for both direction choosing strategies.", "quantifier": "every graph, every pair, every cap, all consistent potentials, both strategies", "why_tests_cant": "pruning and stopping interact with the interleaving of the two searches and with the potentials on every graph", "anchors": ["engine/src/algo/dijkstra/query/bidirectional_dijkstra.rs: Server::distance_with_cap", "engine/src/algo/a_star.rs: SymmetricBiDirPotential, AveragePotential, prune_forward_internal", "engine/src/algo/dijkstra.rs: ChooseMinKeyDir, AlternatingDirs"]}
{"id": "C56", "title": "Overlay graphs preserve distances", "statement": "overlay(graph, order, k) returns a graph on the nodes that are not contracted in which all distances between these nodes are the same as in the graph.", "quantifier": "every graph, order and number of contracted nodes", "why_tests_cant": "all graphs and orders; the result depends on the interaction of removal, shortcuts and the count", "anchors": ["engine/src/algo/contraction_hierarchy/mod.rs: overlay, ContractionGraph::contract_partially, PartialContractionGraph::remove_lowest"]}
{"id": "C57", "title": "Searches that skip nodes of low degree are exact", "statement": "A search that runs along chains of nodes of degree at most two (and through nodes of degree three) without queueing them reports for every pair of nodes the exact shortest distance below INFINITY, otherwise None, together with a node path of that length; with a departure time on a time-dependent graph the earliest arrival; and one-to-all searches label every node with its distance. The classification of nodes by the number of neighbours over incoming and outgoing arcs makes this sound on every graph.", "quantifier": "every graph, every potential that is a consistent lower bound, every sequence of queries on a server, all pairs, departure times and caps, both skip options", "why_tests_cant": "which nodes are queued depends on chains, cycles and branchings on every graph and on the order of relaxations", "anchors": ["engine/src/algo/dijkstra/gen_topo_dijkstra.rs: TopoDijkstraRun::next_step_with_potential, GenTopoDijkstra chain loop", "engine/src/algo/ch_potentials/query.rs: SkipLowDegServer::distance_with_cap, distance_manually_initialized, one_to_all", "engine/src/algo/topocore.rs: symmetric_degree"]}
{"id": "C58", "title": "The topocore server answers queries exactly", "statement": "A server that preprocesses a graph into its topocore (biggest biconnected component, classification of nodes by degree, attached components) can be built for every graph with at least one node, and then answers every query with the exact shortest distance below INFINITY, otherwise None, and a node path of that length.", "quantifier": "every graph, every potential that is a consistent lower bound, every sequence of queries on a server, all pairs, with and without the separate search in the core", "why_tests_cant": "the classification depends on the component structure of every graph; the hand-over between the searches depends on potentials and the order of queue operations", "anchors": ["engine/src/algo/topocore.rs: virtual_topocore, dfs, biconnected, VirtualTopocore", "engine/src/algo/ch_potentials/query.rs: Server::new, Server::distance, VirtualTopocoreOps"]}
{"id": "C59", "title": "Bidirectional search that follows chains of low degree nodes is exact", "statement": "The bidirectional servers that process chains of nodes of low degree within one step (on the topocore of a graph) answer every query with the exact shortest distance if it is below the cap of the query, never report a value that is not the length of a path, and then return a node path of that length.", "quantifier": "every graph, both searches, both strategies to choose a direction without potentials, all consistent symmetric potentials with and without improved pruning, every cap, every sequence of queries on a server, all pairs", "why_tests_cant": "labels change inside of chains without the callback that detects meeting nodes, so exactness depends on how chains, pruning and the stopping criterion of both directions interact on every graph", "anchors": ["engine/src/algo/ch_potentials/query.rs: BiDirServer, BiDirCoreServer, BiDirSkipLowDegRunner::distance, path", "engine/src/algo/topocore.rs: VirtualTopocoreGraph::new_bidir_graphs, reversed, symmetric_degree"]}
{"id": "C60", "title": "The two-thread bidirectional search is safe and exact under every schedule", "statement": "The server that runs the forward and the backward search along chains of low degree nodes in two threads never panics, always terminates, reports only lengths of real paths together with such a path, and reports the shortest distance, however the two threads are scheduled and in whatever order their relaxed atomic accesses become visible.", "quantifier": "every graph with sound degree classes, every query without potentials or with symmetric potentials, every sequence of queries on a server, every interleaving of the two threads and all values that the relaxed loads may return", "why_tests_cant": "a test observes few of the interleavings of two threads that share labels, progress and the tentative distance, and only the memory order of one machine", "anchors": ["engine/src/algo/ch_potentials/query.rs: MultiThreadedBiDirSkipLowDegServer::distance, path", "engine/src/algo/dijkstra/gen_topo_dijkstra.rs: SendTopoDijkstraRun", "engine/src/datastr/timestamped_vector.rs: AtomicDists", "engine/src/algo/a_star.rs: stop_forward, stop_backward, prune_forward, prune_backward"]}
{"id": "C61", "title": "Subpaths that are much longer than necessary are found exactly", "statement": "Given a path and a threshold that does not decrease with the distance, the search for violating subpaths answers exactly the minimal subpaths that are longer than the distance d of their ends by more than the threshold for d, each once and in order; for a path that visits nodes repeatedly it answers exactly the subpaths that return to their first node for the first time. It never panics.", "quantifier": "every graph, every path shorter than INFINITY, every monotone threshold, every history of calls on one server, both with and without debug assertions (with positive weights in the first case)", "why_tests_cant": "the search looks at only a few subpaths per round, chosen by where two shortest path trees leave the path; that no other subpath violates the bound depends on all ways in which the trees can leave and rejoin the path", "anchors": ["engine/src/algo/minimal_nonshortest_subpaths.rs: MinimalNonShortestSubPathsDijkstra::new, find_ubs_violating_subpaths, tree_find_minimal_nonshortest, path_parent, reset_path_parent_cache, filter_covered"]}
{"id": "C62", "title": "Shortest path trees unpacked lazily from a CCH are correct, and so are the violating subpaths found with them", "statement": "On a graph with positive weights, the search for violating subpaths that unpacks its shortest path trees lazily from a perfectly customized CCH never panics or recurses without end, and answers exactly the minimal subpaths of the given path that are longer than the distance d of their ends (in the graph) by more than the threshold for d; for a path that visits nodes repeatedly exactly the subpaths that return to their first node for the first time.", "quantifier": "every graph with positive weights, every node order, every path shorter than INFINITY, every monotone threshold, every history of calls on one server, with and without debug assertions", "why_tests_cant": "which shortcuts are unpacked when depends on the hierarchy and on all earlier questions to the same tree; unpacking overwrites parent pointers of nodes that other paths use, so a wrong pointer shows up only for certain interleavings of questions, and with weights of 0 it even creates cycles", "anchors": ["engine/src/algo/ch_potentials.rs: CCHPotData::new, forward_path_potential, backward_path_potential, CCHPotentialWithPathUnpacking::{init,potential,unpack_path,target_shortest_path_tree}", "engine/src/algo/customizable_contraction_hierarchy/query/stepped_elimination_tree.rs: EliminationTreeWalk", "engine/src/algo/minimal_nonshortest_subpaths.rs: MinimalNonShortestSubPaths::{new,find_ubs_violating_subpaths}"]}
{"id": "C63", "title": "Repairing a path ends, keeps its ends, shortens it and removes every violating subpath; path statistics are exact", "statement": "On a server built from a graph with positive weights, any history of find_ubs_violating_subpaths, its naive variant, fix_violating_subpaths, local_optimality and suboptimal_stats calls runs without panic. fix_violating_subpaths terminates, returns Ok(None) only for paths without violation, Ok(Some(q)) with a strictly shorter path q between the same nodes that has no violating subpath, and Err(q) only if the time limit has passed, with a strictly shorter q. The naive search gives the same answer as the fast one. local_optimality is the length of the shortest subpath that is no shortest path relative to the length of the path, and suboptimal_stats also gives the largest relative detour of all subpaths.", "quantifier": "all graphs with positive weights, node orders, monotone thresholds, paths below the infinite length (without repeated nodes for the statistics), time limits, unstable sort results and histories of calls on one server", "why_tests_cant": "Termination of the repair loop and the absence of violations in its result depend on every path and threshold; a test only sees the result of a few paths, and checking the result needs the search that is itself in question.", "anchors": ["engine/src/algo/minimal_nonshortest_subpaths.rs: MinimalNonShortestSubPaths::fix_violating_subpaths, fix_violating_subpaths_int, find_ubs_violating_subpaths_lazy_rphast_naive, local_optimality, suboptimal_stats"]}
{"id": "C64", "title": "Traffic aware routes by iterative path blocking are optimal among routes without detours", "statement": "For two metrics on one graph (usual and current travel times, positive, no simple path as long as INFINITY), a TrafficAwareServer set up from one CCH customized perfectly for each: every query ends without a panic; a returned route visits no node twice, has no part that exceeds the usual distance of its ends by more than the tolerance, and is fastest in current traffic among all such routes, with the reported distance its length; no route is returned only if the target is unreachable or the time limit passed.", "quantifier": "all graphs and pairs of metrics, node orders, monotone tolerances, histories of queries, moments at which the time limit is noticed, debug and release builds", "why_tests_cant": "The search keeps several labels per node with bit sets of partially followed forbidden paths, and prunes by dominance; the number of rounds is not bounded in advance; termination and optimality depend on every interplay of forbidden paths, loops and re-used state of earlier queries.", "anchors": ["engine/src/algo/traffic_aware.rs: TrafficAwareServer::new, query; ActiveForbittenPaths; ForbiddenPathLabel; BlockedPathsDijkstra::add_forbidden_path, reset, link, merge", "engine/src/algo/dijkstra/generic_dijkstra.rs: MultiCritDijkstraRun", "engine/src/datastr/heap.rs (labels)", "engine/src/algo/minimal_nonshortest_subpaths.rs find_ubs_violating_subpaths", "chpot/src/bin/cchpot_traffic_aware.rs"]}
{"id": "C65", "title": "Heuristic traffic aware routes are free of detours", "statement": "For two metrics on one graph (usual and current travel times), every query to a HeuristicTrafficAwareServer ends; a returned route leads from source to target, visits no node twice, has no part that exceeds the usual distance of its ends by more than the tolerance, and is at most as long in current traffic as reported; a time-out is reported only after the time limit. (Termination is false: there is a query that repeats the same round until the time limit, although the exact server finds a route.)", "quantifier": "all graphs and pairs of metrics, node orders, potentials, monotone tolerances, histories of queries, moments at which the time limit is noticed", "why_tests_cant": "The link operation consults the predecessors of the moment, and the search skips nodes of degree two and three without queueing them, so labels and predecessors can be inconsistent; only an argument over all searches shows what a returned path still guarantees, and only an argument over all rounds shows that a query does not end.", "anchors": ["engine/src/algo/traffic_aware.rs: HeuristicTrafficAwareServer::new, query; BlockedDetoursDijkstra::add_forbidden_path, reset, link", "engine/src/algo/ch_potentials/query.rs: Server::distance, node_path", "engine/src/algo/topocore.rs", "engine/src/algo/dijkstra/gen_topo_dijkstra.rs", "chpot/src/bin/cchpot_traffic_aware.rs"]}
{"id": "C66", "title": "Time-dependent A* is exact for every admissible potential, even an inconsistent one that depends on the time", "statement": "A time-dependent A* server (without chain skipping) whose potential is queried with the time of arrival answers every query of every history without panic, after a bounded number of settled nodes, with the travel time of the earliest arrival, provided the potential never exceeds the remaining travel time for the given time, its values do not grow during a query, and it says 'unreachable' only for unreachable targets. Wrapping the potential so that it is not initialised again for a repeated query, or so that node ids are translated, keeps this.", "quantifier": "all time-dependent graphs with FIFO travel times, all potentials with internal state that meet the contract, all histories of queries (source, departure, target)", "why_tests_cant": "With inconsistent potentials nodes are settled several times and the usual stopping argument fails; whether the search still ends and is exact depends on every order of queue operations and on the state kept by the potential.", "anchors": ["engine/src/algo/td_astar.rs: TDPotential, TDPotentialForPermutated, TDRecyclingPotential", "engine/src/algo/ch_potentials/td_query.rs: SkipLowDegServer::distance, distance_manually_initialized", "engine/src/algo/dijkstra/gen_topo_dijkstra.rs: next_step_with_td_potential"]}
{"id": "C67", "title": "Time-dependent routing with lower bounds for several ranges of time is exact", "statement": "For any FIFO time-dependent graph, any CCH of its topology and any list of (possibly overlapping, periodic) time ranges, optionally merged to fewer metrics, the MultiMetric potential can be built, answers every sequence of queries without panic, never overestimates the remaining travel time of a route that can still be part of an earliest arrival, and time-dependent A* with it reports the earliest arrival for every query that departs on the first day.", "quantifier": "all graphs with FIFO travel time functions (times bounded so that n arcs fit the number range), node orders, lists of ranges ending within the next day, numbers of merged metrics, schedules of the merging tasks, task counts for which the parallel filter works, and all query histories with departures before the period", "why_tests_cant": "The bound used at a node depends on the time at which the node is reached, on the ranges chosen for the query and on values memoised for other times; a bound that is too large for one combination of range, time and upper bound makes a shorter route invisible, which no finite set of queries excludes.", "anchors": ["engine/src/algo/td_astar.rs: MultiMetricPreprocessed::new, MultiMetric::new, TDPotential for MultiMetric", "engine/src/algo/customizable_contraction_hierarchy/query/stepped_elimination_tree.rs", "engine/src/algo/metric_merging.rs"]}
{"id": "C68", "title": "The printed report is the tree of the scopes of the program", "statement": "A program that nests its reporting scopes properly (contexts, collections with items, blocked and captured parts) and reports no key twice in one object runs through without panic; the printed JSON object contains exactly what was reported outside blocked and captured parts, nested like the scopes, and each capture returns exactly what was reported in it. Without enabling, no reporting call panics or prints anything.", "quantifier": "all well-nested programs over the reporting interface, of any depth and length, with and without the override feature", "why_tests_cant": "Every algorithm reports through one global stack that is swapped in and out by guards; whether some nesting of contexts, blocks and captures corrupts or drops the values of an enclosing scope depends on the whole history of calls.", "anchors": ["engine/src/report.rs: Reporter, push_context, push_collection_context, block_reporting, capture_reporting, CaptureReportingContextGuard::reported, enable_reporting"]}
{"id": "C69", "title": "Speed estimation gives exactly one estimate per link of the drive", "statement": "For every drive whose links are all different, with GPS positions on the first and the last link (two if there is only one link), estimate_iter runs through without panic and yields exactly one estimate per link, in the order of the drive, including links without any position. It returns an error exactly if there are no links or no positions.", "quantifier": "all drives of any length, any distribution of positions over the links, all results of the floating point operations (release builds)", "why_tests_cant": "The two input streams are merged by looking one element ahead and a state machine with six states decides when estimates are emitted; every distribution of positions over links takes a different way through it.", "anchors": ["engine/src/link_speed_estimates/mod.rs: estimate_iter", "engine/src/link_speed_estimates/event_iterator.rs: EventIterator", "engine/src/link_speed_estimates/link_speed_estimator.rs: LinkSpeedEstimator"]}
{"id": "C70", "title": "Averages over a window lie between the bounds of the travel times, and sampling servers can be created", "statement": "For every valid travel time function and every window of the day, also one that wraps around midnight, average returns a value between the lowest and the highest travel time within the window; the server for time-dependent sampling can be created for every graph with valid functions.", "quantifier": "all valid travel time functions, all windows, all graphs and hierarchies", "why_tests_cant": "The segments of a function are cut at the ends of the window and at midnight; whether an index stays in bounds and which values are used depends on where the break points lie relative to the window.", "anchors": ["engine/src/datastr/graph/time_dependent/piecewise_linear_function.rs: average, non_wrapping_seg_iter", "engine/src/datastr/graph/time_dependent/sorted_search_slice_ext.rs: index_range", "engine/src/algo/time_dependent_sampling.rs: Server::new"]}
{"id": "C71", "title": "Alternative routes by penalties are different enough and short enough, and queries do not influence each other", "statement": "For every sequence of queries for alternative routes: no query panics or runs forever, all penalties are taken back at its end (the weights of both directions and the counters are as before), every alternative is a simple path between source and target of which more than a fifth is on no route returned before, and it is not longer than 5/4 of the shortest path.", "quantifier": "all graphs, all sequences of queries to Penalty and PenaltyIterative, all answers that the searches may give", "why_tests_cant": "Whether the weights are restored depends on which nodes were visited in which round and how often; it shows only in later queries, and overflows only for long routes.", "anchors": ["engine/src/algo/ch_potentials/penalty.rs: Penalty::alternatives, Penalty::alternatives_iterative, PenaltyIterative::alternatives", "engine/src/algo/ch_potentials/query.rs: MultiThreadedBiDirSkipLowDegServer::set_edge_weight"]}
{"id": "C72", "title": "Travel time functions of CATCHUp: linking is driving one road after the other", "statement": "For all periodic travel time functions without overtaking: evaluation at any time returns the value of the function there, linking two functions never panics and returns a travel time function without overtaking whose value at every time is the time for the first road plus the time for the second road when entered at the arrival, and inverse evaluation returns a departure with the given arrival.", "quantifier": "all valid piecewise linear functions with any number of points (constant or not), all times, also on other days", "why_tests_cant": "The breakpoints of the two functions interleave in every possible way, including across midnight and at equal arrival times; tests fix a few functions.", "anchors": ["engine/src/datastr/graph/floating_time_dependent/piecewise_linear_function.rs: PeriodicPiecewiseLinearFunction::{evaluate, inverse_evaluate, link}, PartialPiecewiseLinearFunction::eval, append_point", "engine/src/datastr/graph/floating_time_dependent/piecewise_linear_function/cursor.rs: Cursor, PartialPlfLinkCursor"]}
{"id": "C73", "title": "Travel time functions of CATCHUp: merging is the minimum, and the changes are where the faster road changes", "statement": "For all periodic travel time functions without overtaking: merging two functions never panics and returns a travel time function without overtaking whose value at every time is the smaller one of the two values; the list of changes starts at midnight, is strictly increasing and alternating, and says for every time of the day which of the two functions is not slower.", "quantifier": "all valid piecewise linear functions with any number of points (constant or not), all times", "why_tests_cant": "Breakpoints interleave and segments cross, touch or coincide in every possible way, also at the start and end of the day; tests fix a few functions.", "anchors": ["engine/src/datastr/graph/floating_time_dependent/piecewise_linear_function.rs: PeriodicPiecewiseLinearFunction::merge, PartialPiecewiseLinearFunction::{merge_in_bounds, upper_bound, lower_bound}", "engine/src/datastr/graph/floating_time_dependent/geometry/point.rs: ccw, clockwise, counter_clockwise, intersect, intersection_point, colinear_ordered", "engine/src/datastr/graph/floating_time_dependent/piecewise_linear_function/cursor.rs: Cursor"]}
{"id": "C74", "title": "Travel time functions of CATCHUp: approximations stay within the tolerance, bounds are bounds", "statement": "For all travel time functions without overtaking: approximating never panics, keeps some of the points and differs from the function by at most the tolerance at every time. The lower bound is at no time above the function, the upper bound at no time below, both are at most twice the tolerance away, both are periodic and without overtaking; the same holds for functions for a part of a day. Bounds of bounds are covered, too.", "quantifier": "all piecewise linear functions without overtaking with any number of points (two or more), all tolerances that are not negative, all times on all days", "why_tests_cant": "The recursion splits at the worst point, neighbouring parts are joined at shared points, the ends of the day are tied together and overtaking is repaired afterwards; whether each of these steps keeps the bound can only be settled for all functions at once.", "anchors": ["engine/src/datastr/graph/floating_time_dependent/piecewise_linear_function.rs: PeriodicPiecewiseLinearFunction::{approximate, lower_bound_ttf, upper_bound_ttf, bound_ttfs, make_lower_bound_periodic, make_upper_bound_periodic, fifoize_down, fifoize_up}, PartialPiecewiseLinearFunction::{douglas_peuker, douglas_peuker_combined, lower_bound_ttf, upper_bound_ttf, bound_ttfs, fifoize_down, fifoize_up}"]}
{"id": "C75", "title": "CATCHUp queries return the earliest arrival", "statement": "For all road networks with time-dependent travel times without overtaking, all hierarchies customized for them, all sources, targets and departure times, and after any sequence of earlier queries on the same server: the query ends without a panic and returns the travel time of the earliest possible arrival, and nothing exactly if there is no way.", "quantifier": "all networks and hierarchies of any size, all bounds and expansions of the arcs that belong to the network, all departure times, all query histories on a server", "why_tests_cant": "The corridor prunes with bounds, the masks keep bits of earlier queries, the preset distances are no arrivals, the potentials depend on all of them and nodes can be settled more than once; an error in any of these shows only for certain bounds and times, as the wrong answers with lazy relaxation do, which need a tie.", "anchors": ["engine/src/algo/catchup.rs: Server::{new, distance, query}", "engine/src/algo/catchup/floating_td_stepped_elimination_tree.rs: FloatingTDSteppedEliminationTree", "engine/src/datastr/graph/floating_time_dependent/shortcut_graph.rs: CustomizedSingleDirGraph::{evaluate, evaluate_next_segment_at}", "engine/src/datastr/graph/floating_time_dependent/shortcut_source.rs: ShortcutSource::{evaluate_opt, evaluate_next_segment_at}, edge_source_at"]}
{"id": "C76", "title": "Customizing CATCHUp yields a hierarchy on which queries are exact", "statement": "For all road networks with valid travel time functions and all chordal contraction hierarchies of them: the customization ends without a panic, and CATCHUp queries on its result return the travel time of the earliest possible arrival, and nothing exactly if there is no way. In particular every shortcut evaluates, at every time of the day, to the shortest way over the road and the lower triangles it stands for.", "quantifier": "all networks, travel time functions and hierarchies of any size, all orders of processing triangles, all departure times and query histories", "why_tests_cant": "Each shortcut stores only from when on which triangle is used; these lists are merged over and over with the break points of the faster function, functions are freed before later nodes are processed, triangles are skipped because of bounds, and shortcuts are dropped and renumbered. An error shows only at certain times of the day and for certain shapes of functions.", "anchors": ["engine/src/algo/customizable_contraction_hierarchy/customization/ftd.rs: customize, customize_internal", "engine/src/datastr/graph/floating_time_dependent/shortcut.rs: Shortcut::{new, merge, finalize_bounds, clear_plf}, Sources::combine", "engine/src/datastr/graph/floating_time_dependent/shortcut_source.rs: Sources iterators", "engine/src/datastr/graph/floating_time_dependent/shortcut_graph.rs: CustomizedGraph::new"]}
{"id": "C77", "title": "The path of a CATCHUp query can be driven and arrives at the earliest possible time", "statement": "After a CATCHUp query that found a way, retrieving the path does not panic and ends, and the path is a list of nodes with arrival times that begins with the source at the departure time and ends with the target at the earliest possible arrival, which is the departure plus the returned travel time; from each entry, after waiting if need be, a road leads to the next one with the stated arrival.", "quantifier": "all networks with travel time functions, customized hierarchies, sources, targets, departure times and query histories on the same server", "why_tests_cant": "Parents are not cleared between queries, distances are preset from upper bounds without a parent, nodes can be improved again after their successors were reached from them, and shortcuts are unpacked at the final distance of the parent, not at the one used when the successor was reached. A cycle of parents, a stale parent or a path that arrives later than the query said depends on the order in which nodes are settled and on the shapes of the functions.", "anchors": ["engine/src/algo/catchup.rs: Server::{distance, path}, PathServerWrapper::reconstruct_node_path", "engine/src/datastr/graph/floating_time_dependent/shortcut_graph.rs: CustomizedSingleDirGraph::unpack_at", "engine/src/datastr/graph/floating_time_dependent/shortcut_source.rs: ShortcutSource::unpack_at"]}
{"id": "C78", "title": "Dijkstra on CATCHUp's time-dependent graphs is exact, reports Dijkstra ranks correctly, and CATCHUp agrees with it", "statement": "On a time-dependent graph with valid travel time functions, a query from a node at a departure time does not panic, ends after at most as many steps as there are nodes, returns the travel time of the earliest arrival before the end of time and nothing exactly if there is none, whatever queries were made before; the retrieved path starts at the source at the departure time, takes a road at each arrival without waiting, and ends at the target at that earliest arrival. The rank callback is called for the nodes of rank 1, 2, 4, 8, ... among all reachable nodes ordered by earliest arrival, with their arrival and the exponent. Where CATCHUp runs on a hierarchy customized for the same roads, it returns the same travel times.", "quantifier": "all time-dependent graphs, sources, targets, departure times (and hence days), histories of queries, node orders", "why_tests_cant": "Experiments compare CATCHUp with this search, so errors of the search itself are only visible as disagreements. Optimality has to hold for all shapes of functions, including roads with travel time zero, parallel roads and loops, where chains of predecessors could close a cycle.", "anchors": ["engine/src/algo/dijkstra/query/floating_td_dijkstra.rs: Server::{ranks, distance, path}, FlTDDijkstraOps::{link, merge}", "engine/src/algo/dijkstra/generic_dijkstra.rs: DijkstraRun::{initialize, add_start_node, settle_next_node}", "engine/src/datastr/graph/floating_time_dependent/graph.rs: Graph::{travel_time_function, link_iter}"]}
{"id": "C79", "title": "Importing HERE data yields one arc per link and allowed direction, and link ids map to arcs and back", "statement": "For input with unique ids whose links join existing nodes, and with at least one link in the region, the import does not panic. The graph is a valid adjacency array. Its nodes are the ends of the links that lie in the region and have navigation attributes, each exactly once and with its coordinates. For every such link and every direction in which it may be driven there is exactly one arc, between the right nodes and with the weight of the link in that direction. Looking up a link and a direction yields that arc, or nothing if the link cannot be driven so; looking up an arc yields its link and direction, each arc belonging to exactly one.", "quantifier": "all lists of nodes, links and navigation attributes with unique ids, all regions, all weights of links", "why_tests_cant": "The import goes through bit vectors, ranks, counting sort and a table in both directions; an error in one boundary shifts the arcs of a single node or link among millions, and the graph still looks valid.", "anchors": ["conversion/src/here/mod.rs: read_graph", "conversion/src/here/link_id_mapper.rs: LinkIdMapper::{new, here_to_local_link_id, local_to_here_link_id}", "engine/src/datastr/rank_select_map.rs: RankSelectMap, InvertableRankSelectMap"]}
{"id": "C80", "title": "CATCHUp's time-dependent graphs and the graphs in milliseconds, built from the same files, have the same roads", "statement": "From valid input files the constructors of both kinds of time-dependent graphs succeed. CATCHUp's graph has a valid travel time function for each arc, which goes exactly through the break points of the input; the travel time in milliseconds at any whole millisecond of any day is the travel time in seconds, rounded down. A query in milliseconds is answered whenever the query in seconds is and never with a later arrival. The times annotated to a path of arcs are the times of driving along these arcs.", "quantifier": "all input arrays with valid adjacency arrays and FIFO break points starting at time 0, all arcs, departure times, days, sequences of queries, paths", "why_tests_cant": "The two implementations differ in number type, rounding and representation; tests compare them on samples, but that one is a rounded version of the other, and that rounding down never makes a way longer, has to hold for all functions and times.", "anchors": ["engine/src/datastr/graph/floating_time_dependent/graph.rs: Graph::{new, travel_time_function, get_path_with_times}", "engine/src/datastr/graph/time_dependent/graph.rs: Graph::{new, travel_time_function}", "engine/src/algo/dijkstra/query/floating_td_dijkstra.rs: Server", "engine/src/algo/dijkstra/query/td_dijkstra.rs: Server"]}
{"id": "C81", "title": "CATCHUp's pre-customization gives valid bounds and switches off only shortcuts that are never on a fastest way", "statement": "On a chordal hierarchy with at most one road per arc and direction, the pre-customization does not panic. For each shortcut it keeps, everything the shortcut can stand for takes at least the lower bound at every time, there is at every time a way that takes at most the upper bound, and a shortcut marked as constant stands for something that takes exactly the lower bound at every time. For each shortcut it switches off, there is at every time a way that is faster, by more than the tolerance, than everything the shortcut can stand for; so a shortcut that is a fastest way at some time is kept.", "quantifier": "all chordal hierarchies, roads, valid travel time functions below infinity, tolerances >= 0, arcs, directions, departure times", "why_tests_cant": "A shortcut switched off by mistake only changes results for a few queries at a few times of the day; that it is never needed is a statement about all times and all ways through the triangles.", "anchors": ["engine/src/algo/customizable_contraction_hierarchy/customization/ftd.rs: customize_internal (customize, customize_perfect, disable_dominated)", "engine/src/datastr/graph/floating_time_dependent/shortcut.rs: Shortcut::update_is_constant"]}
{"id": "C82", "title": "CATCHUp's post-customization removes only shortcuts that no fastest way needs, and queries stay exact", "statement": "The customization with post-customization (with or without pre-customization) does not panic on a chordal hierarchy with at most one road per arc and direction. Every shortcut it keeps can be evaluated using only shortcuts that it keeps, and takes exactly as long as a trip; its bounds are valid. Queries on the result return nothing if there is no way, and otherwise the earliest arrival and a path that can be driven to arrive then, for any history of earlier queries.", "quantifier": "all chordal hierarchies, roads with valid travel time functions for which who leaves later arrives later, tolerances of the query > 0, histories of queries, sources, targets, departure times", "why_tests_cant": "A shortcut that is switched off although another shortcut consists of it, or one that is fastest only for some minutes of the day, shows up only for certain pairs and times; removing too much and removing exactly enough are indistinguishable on most networks.", "anchors": ["engine/src/algo/customizable_contraction_hierarchy/customization/ftd.rs: customize_internal (postcustomization)", "engine/src/datastr/graph/floating_time_dependent/shortcut.rs: Shortcut::disable_if_unneccesary, Shortcut::reenable_required", "engine/src/datastr/graph/floating_time_dependent/shortcut_source.rs: ShortcutSource::required"]}
{"id": "C83", "title": "Graphs with live reports use the reported travel time until the report ends, then return to the usual one without overtaking", "statement": "Building a graph with live reports from a graph with valid travel time functions does not panic and terminates. On a road with a report, the travel time is the reported one until the report ends; then it grows or shrinks by a second per second until it first meets the usual travel time, and from then on it is the usual one. Roads without a report keep their travel times. Who leaves later does not arrive earlier, on roads and on paths, the lower and upper bounds of the functions hold, and the travel time of a path is that of driving along it. The time of the reports is the one given, and asking for it panics if there is no report. With debug assertions, evaluating a road without a report panics.", "quantifier": "all graphs with valid travel time functions (constant or not), reports that end after the present, roads, paths, departure times from the present on", "why_tests_cant": "The switch back to the usual travel time depends on where the report ends relative to the points of the function, possibly days later; whether the search for the meeting point ends and is the first one is a statement about all functions and all times.", "anchors": ["engine/src/datastr/graph/floating_time_dependent/graph.rs: LiveGraph::new, LiveGraph::switchpoint, LiveGraph::travel_time_function, LiveGraph::t_live, TDGraphTrait::evaluate_path", "engine/src/datastr/graph/floating_time_dependent/piecewise_linear_function.rs: UpdatedPiecewiseLinearFunction"]}
{"id": "C84", "title": "Perfect customization with validities keeps upper bounds true from the time on that it states", "statement": "Perfect customization that keeps track of validities takes upper bounds on travel times that hold only from some point in time on. Afterwards every bound is a sum of given bounds along a way between the same nodes and its validity is the latest of theirs; so whatever the traffic is, if the given bounds hold from their validity on, the resulting bounds do, too. An entry is left as it was or gets a lower bound. The weights are those of plain perfect customization, so shortest distances if the input was customized with a metric. The result does not depend on the schedule of the parallel tasks. The upper bounds of the interval potential are never above the given ones and hold.", "quantifier": "all graphs, contraction orders, bounds up to INFINITY, validities, traffic, schedules", "why_tests_cant": "Whether a bound and its validity fit together depends on the order in which triangles improve an arc; a validity that is too early is only visible for departures in the gap, and the property ranges over all traffic and schedules.", "anchors": ["engine/src/algo/customizable_contraction_hierarchy/customization/validity.rs: customize_perfect_with_validity", "engine/src/algo/td_astar.rs: IntervalMinPotential::new"]}
{"id": "C85", "title": "The check for disconnected targets never hides a reachable target", "statement": "A query server behind the check for disconnected targets gives the same answers as without it, over any sequence of queries, if the server says \"not reachable\" for targets that cannot be reached. The check says \"disconnected\" exactly if the source does not lead to the target and at most 200 nodes lead to the target; in that case the server is not asked and the path is empty. The check never panics and its recursion is never deeper than 201 calls, however large the graph is.", "quantifier": "all graphs, all sequences of queries, all servers", "why_tests_cant": "The bounded search with marks kept from one call to the next must be right for every graph and history; on well connected test graphs the check nearly always gives up after 200 nodes, and a stack overflow would show only on graphs with long dead ends.", "anchors": ["engine/src/algo/dijkstra/query/mod.rs: disconnected_targets::CatchDisconnectedTarget (new, check_target, query, td_query), PathServer for Option", "engine/src/datastr/graph/first_out_graph.rs: UnweightedOwnedGraph, BuildReversed"]}
{"id": "C86", "title": "The interval potential for live traffic keeps exactly the arcs that can be unpacked with good arcs", "statement": "When the interval potential for live traffic is set up, arcs whose lower bound is above the upper bound are dropped, and then all arcs that can only be unpacked through dropped arcs. Afterwards an arc is required exactly if it was required before, its bounds fit, and it can be unpacked completely into original edges using only such arcs. There is no panic, and the order in which the tasks process nodes does not matter.", "quantifier": "all hierarchies with sources, all bounds, all flags, all orders of the nodes in which parts come first", "why_tests_cant": "An arc dropped by mistake is visible only in queries whose fastest way needs it, an arc kept by mistake only in unpacking; both depend on chains of sources of any length and on the order of processing.", "anchors": ["engine/src/algo/td_astar.rs: IntervalMinPotential::new_for_live (disable_shortcuts_with_invalid_sources)"]}
{"id": "C87", "title": "From the computed time on, arcs of the hierarchy are not affected by live traffic", "statement": "For the interval potential for live traffic a time is computed for every arc of the hierarchy. Whoever leaves at that time or later, not before the current time, and drives the arc as it is unpacked at the time of departure (recursively, with the sources that hold at the time each part is entered), enters every original edge only after the live report for it has ended; all up to the tolerance of the comparisons. A time above zero has a reason: a source of the arc which starts before the last report ends and holds until then, with an original edge in it whose report ends then or later. Nothing panics and the loops over the periodic sources end.", "quantifier": "all hierarchies with time-dependent sources, all reports, current times, departure times, travel times, tolerances, orders of the nodes in which parts come first, correct binary searches", "why_tests_cant": "Sources change over the day and wrap around at midnight; an error shows only for departures in short gaps between the end of a report and a change of the source, nested to any depth.", "anchors": ["engine/src/algo/td_astar.rs: IntervalMinPotential::new_for_live (set_prediction_validity_from_sources)", "engine/src/datastr/graph/floating_time_dependent/shortcut_source.rs: SourceCursor (valid_at, cur, next, advance)"]}
{"id": "C88", "title": "Bounds on travel times are right, also where they switch from live to predicted traffic", "statement": "The interval potential bounds the travel times from a source at a departure to any node, with arcs whose upper bound is replaced by a smaller one from some time on. For any history of starts and questions nothing panics or overflows. Nobody reaches the node before departure plus lower bound; a missing answer means nobody gets there in less than INFINITY. If the upper bound is below INFINITY there is a trip that arrives between the two bounds. The lower bound is that of a path, and the upper bound is not above what the live bounds alone give along any up-down path.", "quantifier": "all hierarchies with bounds, elimination trees, histories of starts and questions, departures, kinds of traffic for which the bounds of the arcs hold", "why_tests_cant": "Which of two upper bounds applies depends on the earliest time the tail of an arc can be reached; a wrong choice gives bounds that hold for most departures and fail only near the end of a live report.", "anchors": ["engine/src/algo/td_astar.rs: MinMaxPotential (init, potential)", "engine/src/algo/td_astar.rs: LiveToPredictedBounds (lower, td_upper)"]}
{"id": "C89", "title": "Answers of the interval potential are lower bounds on the remaining travel time, whatever was asked before", "statement": "For roads with periodic FIFO travel times and data that fits them, a question for a node at a time at which it is reached is answered with a lower bound on the remaining travel time to the target, for every history of questions. This does not hold: a proved counterexample has an answer of 7 hours where 3 hours remain, and the right answer if one earlier question is left out.", "quantifier": "all roads, data of the potential, sources, targets, departures, histories of questions", "why_tests_cant": "The wrong answer needs three questions in a certain order of times and nodes, with travel times that change between them.", "anchors": ["engine/src/algo/td_astar.rs: IntervalMinPotential (init, potential)", "engine/src/algo/td_astar.rs: IntervalMinPotential::{to_bucket_idx, fw_bucket_slice, bw_bucket_slice}"]}
{"id": "C90", "title": "The interval potential never reads an estimate that was not computed", "statement": "When it computes the estimate of a node, the interval potential reads the estimates of the heads of its upward arcs without checking that they exist. For every history of queries and questions on one potential, with any times, each estimate that is read was computed and stored before.", "quantifier": "all hierarchies whose upward arcs lead to ancestors in the elimination tree, weights, and histories of queries and questions", "why_tests_cant": "Whether an estimate exists depends on all earlier questions and their times; a wrong read goes unnoticed because the access is unchecked.", "anchors": ["engine/src/algo/td_astar.rs: IntervalMinPotential (init, potential)"]}
