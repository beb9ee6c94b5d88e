# Formal model of kit-algo/rust_road_router in Lean 4

## 1. What this is

`lean/Verif/` holds a machine-checked model of the algorithmic core of the `engine` crate of
rust_road_router (`/repo/engine/src`) and proofs of the properties in `properties.jsonl`.

Layout (one folder per layer):

| folder | contents |
| --- | --- |
| `Verif/Spec/` | small specifications that do not mention the model (walks, shortest distance, priority queue, FIFO, ...) |
| `Verif/Model/` | the model: one Lean definition per modelled function, each with a `/repo` citation |
| `Verif/Proof/` | helper lemmas |
| `Verif/Props/` | the property theorems `C01_...`, and an `example` beside each |

`MANIFEST.json` maps each property to its theorems.
`seeded/LOG.jsonl` records the wrong programs the theorems were tried against.

## 2. Modelling conventions

* **Integers.** `u32`/`usize` values are `Nat`. Where a property is about overflow or wrap-around the addition is
  checked (`add32 : Nat -> Nat -> Option Nat`, `none` = the debug-build panic / release-build wrap) or is taken modulo
  `2^32`. `INFINITY = (2^32 - 1) / 2 = 2147483647` as in `datastr/graph.rs`.
* **Arrays** are `List`s. An index out of bounds is an explicit `none` (`getElem?`), never a default value.
* **Panics** (failed `assert!`, `unwrap` on `None`, out of bounds, overflow) are `none`; a theorem of the form `f x = some r`
  therefore includes "does not panic".
* **Mutation** (`&mut`) becomes a function returning the new value.
* **Loops** are folds, structural recursion, or recursion on fuel. Where fuel is used a theorem shows that the fuel used
  by the entry point never runs out, which is a termination proof of the Rust loop.
* **Threads.** A parallel computation is modelled as an arbitrary schedule (order of atomic node/task steps that respects
  the fork/join dependencies of the code). Atomicity of a node step is justified by the disjointness of what tasks write
  and read, which is itself proved. The Rust memory model, rayon and the OS scheduler are not modelled.
* **Files** are byte lists. The OS is not modelled.
* **Floats** are not modelled as such. Where only the order of operations matters they are an abstract type (C69). In the
  travel time functions of CATCHUp (C72 and later) `f64` is a rational number: rounding and the special values do not exist there, and the tolerance
  `EPSILON` of comparisons is a parameter that the theorems set to zero. These claims are marked partial for this reason.

## 3. Trusted base

* Lean 4.33.0's kernel and the three standard axioms `propext`, `Classical.choice`, `Quot.sound`. No further axioms;
  no `sorry`, `native_decide`, `bv_decide`, `implemented_by`, `unsafe`. The axioms of each theorem are listed in `AXIOMS.md`.
* That the model says what the code says. The code was read, not run. Every definition cites the lines it models.
* The Rust standard library behaves as documented (`Vec`, `sort`, `slice::binary_search`, `mem::swap`, iterators).

<!-- coverage begin -->
### 3.1 Modelled

Per source file: its lines, the lines cited by definitions of the model (from the citations), the model files. The rest of such a file
(reporting, `Debug`/I/O glue, statistics, variants named in the notes of `MANIFEST.json`) is not modelled.

| file | lines | cited | model |
| --- | --- | --- | --- |
| `conversion/src/here/link_id_mapper.rs` | 57 | 47 | Here |
| `conversion/src/here/mod.rs` | 361 | 245 | Here |
| `engine/src/algo/a_star.rs` | 394 | 333 | BiDijkstra, BiTopoMT, Dijkstra, Potential |
| `engine/src/algo/alt.rs` | 276 | 111 | Alt |
| `engine/src/algo/catchup.rs` | 589 | 535 | Catchup |
| `engine/src/algo/catchup/floating_td_stepped_elimination_tree.rs` | 136 | 73 | Catchup |
| `engine/src/algo/ch_potentials.rs` | 740 | 295 | CCHPathPot, CCHPotential |
| `engine/src/algo/ch_potentials/penalty.rs` | 802 | 675 | Penalty |
| `engine/src/algo/ch_potentials/query.rs` | 1328 | 924 | BiTopo, BiTopoMT, HeuristicTraffic, TopoDijkstra, Topocore |
| `engine/src/algo/ch_potentials/td_query.rs` | 595 | 88 | TdAStar |
| `engine/src/algo/contraction_hierarchy/mod.rs` | 390 | 274 | CH |
| `engine/src/algo/contraction_hierarchy/query.rs` | 169 | 138 | CH |
| `engine/src/algo/customizable_contraction_hierarchy/contraction.rs` | 246 | 162 | CCH, Separator |
| `engine/src/algo/customizable_contraction_hierarchy/customization.rs` | 630 | 574 | CCH, Directed, Perfect, Separator |
| `engine/src/algo/customizable_contraction_hierarchy/customization/directed.rs` | 302 | 130 | Directed |
| `engine/src/algo/customizable_contraction_hierarchy/customization/ftd.rs` | 623 | 536 | FtdCustomize, FtdPost, FtdPre |
| `engine/src/algo/customizable_contraction_hierarchy/customization/ftd_for_pot.rs` | 727 | 13 | Sources |
| `engine/src/algo/customizable_contraction_hierarchy/customization/parallelization.rs` | 408 | 68 | Separator |
| `engine/src/algo/customizable_contraction_hierarchy/customization/validity.rs` | 83 | 82 | Validity |
| `engine/src/algo/customizable_contraction_hierarchy/mod.rs` | 671 | 194 | Directed, IO, Perfect, Separator |
| `engine/src/algo/customizable_contraction_hierarchy/query.rs` | 208 | 192 | CCH, Penalty, Perfect |
| `engine/src/algo/customizable_contraction_hierarchy/query/nearest_neighbor.rs` | 258 | 105 | NearestNeighbor |
| `engine/src/algo/customizable_contraction_hierarchy/query/stepped_elimination_tree.rs` | 134 | 100 | CCH, CCHPathPot, CCHPotential, MultiMetric |
| `engine/src/algo/customizable_contraction_hierarchy/reorder.rs` | 113 | 45 | Separator |
| `engine/src/algo/customizable_contraction_hierarchy/separator_decomposition.rs` | 179 | 129 | Separator |
| `engine/src/algo/dijkstra.rs` | 327 | 209 | BiDijkstra, Catchup, Dijkstra, FlTdDijkstra, ForbiddenPaths, HeuristicTraffic, IndexHeap, MultiCrit |
| `engine/src/algo/dijkstra/gen_topo_dijkstra.rs` | 544 | 389 | BiTopoMT, HeuristicTraffic, TdAStar, TopoDijkstra |
| `engine/src/algo/dijkstra/generic_dijkstra.rs` | 449 | 302 | Dijkstra, FlTdDijkstra, MultiCrit |
| `engine/src/algo/dijkstra/query/bidirectional_dijkstra.rs` | 217 | 128 | BiDijkstra |
| `engine/src/algo/dijkstra/query/dijkstra.rs` | 190 | 48 | Dijkstra, TdDijkstra |
| `engine/src/algo/dijkstra/query/floating_td_dijkstra.rs` | 135 | 61 | FlTdDijkstra |
| `engine/src/algo/dijkstra/query/mod.rs` | 112 | 102 | Disconnected |
| `engine/src/algo/dijkstra/query/nearest_neighbor.rs` | 50 | 34 | DijkstraVisit |
| `engine/src/algo/dijkstra/query/td_dijkstra.rs` | 97 | 1 | TdDijkstra |
| `engine/src/algo/hl.rs` | 131 | 108 | HubLabels |
| `engine/src/algo/metric_merging.rs` | 102 | 94 | Merging |
| `engine/src/algo/minimal_nonshortest_subpaths.rs` | 799 | 623 | CCHPathPot, FixSubPaths, Sequences, SubPaths |
| `engine/src/algo/mod.rs` | 245 | 117 | CCH, Potential |
| `engine/src/algo/rphast.rs` | 204 | 116 | RPHAST |
| `engine/src/algo/td_astar.rs` | 1522 | 965 | IntervalMin, LiveUntil, MinMax, MultiMetric, Sources, TdAStar, Validity |
| `engine/src/algo/time_dependent_sampling.rs` | 131 | 36 | Average |
| `engine/src/algo/topocore.rs` | 919 | 729 | BiTopo, Topocore |
| `engine/src/algo/traffic_aware.rs` | 791 | 485 | ForbiddenPaths, HeuristicTraffic, MultiCrit, TrafficAware |
| `engine/src/datastr/clearlist_vector.rs` | 49 | 27 | Containers |
| `engine/src/datastr/graph.rs` | 251 | 76 | Base, Graph, GraphOps |
| `engine/src/datastr/graph/first_out_graph.rs` | 657 | 318 | CCH, Disconnected, Graph, GraphOps, IO, IntervalMin, MinMax |
| `engine/src/datastr/graph/floating_time_dependent/geometry/point.rs` | 176 | 103 | FlMerge, FlPlf |
| `engine/src/datastr/graph/floating_time_dependent/graph.rs` | 394 | 218 | FlLive, FlTdDijkstra, FlTdGraph |
| `engine/src/datastr/graph/floating_time_dependent/mod.rs` | 522 | 26 | Catchup, FlApprox, FlMerge, FlPlf |
| `engine/src/datastr/graph/floating_time_dependent/piecewise_linear_function.rs` | 1787 | 792 | FlApprox, FlLive, FlMerge, FlPlf |
| `engine/src/datastr/graph/floating_time_dependent/piecewise_linear_function/cursor.rs` | 217 | 110 | FlMerge, FlPlf |
| `engine/src/datastr/graph/floating_time_dependent/shortcut.rs` | 641 | 415 | Catchup, FtdCustomize, FtdPost, FtdPre |
| `engine/src/datastr/graph/floating_time_dependent/shortcut_graph.rs` | 1882 | 233 | Catchup, FtdCustomize |
| `engine/src/datastr/graph/floating_time_dependent/shortcut_source.rs` | 677 | 165 | Catchup, FtdCustomize, FtdPost, LiveUntil |
| `engine/src/datastr/graph/link_id_to_tail_mapper.rs` | 81 | 63 | TailMapper |
| `engine/src/datastr/graph/time_dependent/geometry/line.rs` | 62 | 32 | Plf |
| `engine/src/datastr/graph/time_dependent/graph.rs` | 624 | 146 | FlTdGraph, Plf, TdDijkstra |
| `engine/src/datastr/graph/time_dependent/math.rs` | 74 | 30 | Plf |
| `engine/src/datastr/graph/time_dependent/piecewise_linear_function.rs` | 278 | 124 | Average, FlLive, Plf |
| `engine/src/datastr/graph/time_dependent/sorted_search_slice_ext.rs` | 68 | 44 | Average, Plf |
| `engine/src/datastr/graph/time_dependent/wrapping_range.rs` | 46 | 6 | Average |
| `engine/src/datastr/heap.rs` | 367 | 226 | Heap |
| `engine/src/datastr/index_heap.rs` | 310 | 130 | Catchup, IndexHeap |
| `engine/src/datastr/node_order.rs` | 107 | 64 | Containers, IO |
| `engine/src/datastr/rank_select_map.rs` | 506 | 274 | BitVec, Catchup, IO |
| `engine/src/datastr/timestamped_vector.rs` | 197 | 89 | Containers |
| `engine/src/io.rs` | 227 | 64 | IO |
| `engine/src/link_speed_estimates/event_iterator.rs` | 88 | 73 | LinkSpeed |
| `engine/src/link_speed_estimates/link_speed_estimator.rs` | 342 | 314 | LinkSpeed |
| `engine/src/link_speed_estimates/mod.rs` | 43 | 31 | LinkSpeed |
| `engine/src/report.rs` | 431 | 364 | Report |
| `engine/src/util.rs` | 355 | 47 | CCH, Graph, Sequences |
| `engine/src/util/in_range_option.rs` | 86 | 47 | Containers |

### 3.2 Not modelled

* `src/bin` programs of all crates, tests, build scripts: command line programs around the library.
* Threads beyond arbitrary schedules, the memory model of Rust, allocation, floating point rounding, the file system beyond §5, time.
* `catchup/src/lib.rs`: module declarations
* `cchpp/src/lib.rs`: module declarations
* `chpot/src/lib.rs`: module declarations
* `conversion/src/here/csv_source.rs`: experiments, reporting, import or user interface
* `conversion/src/lib.rs`: experiments, reporting, import or user interface
* `engine/src/algo/catchup/partial_profiles.rs`: profile queries
* `engine/src/algo/catchup/profiles.rs`: profile queries
* `engine/src/algo/catchup/profiles_naive.rs`: profile queries
* `engine/src/algo/traffic_aware/td_live.rs`: traffic-aware server with live data
* `engine/src/algo/traffic_aware/td_traffic_pots.rs`: interval potentials for traffic-aware queries
* `engine/src/algo/traffic_aware/time_dependent.rs`: time-dependent traffic-aware server
* `engine/src/cli.rs`: experiments, reporting, import or user interface
* `engine/src/datastr.rs`: module declarations
* `engine/src/datastr/graph/floating_time_dependent/geometry/imai_iri.rs`: only with the feature tdcch-approx-imai-iri
* `engine/src/datastr/graph/floating_time_dependent/geometry/mod.rs`: module declarations
* `engine/src/datastr/graph/floating_time_dependent/partial_shortcut.rs`: profile queries
* `engine/src/datastr/graph/floating_time_dependent/travel_time_function.rs`: partial travel time functions of profile queries
* `engine/src/datastr/graph/time_dependent/geometry/mod.rs`: module declarations
* `engine/src/datastr/graph/time_dependent/geometry/point.rs`
* `engine/src/datastr/graph/time_dependent/geometry/segment.rs`
* `engine/src/datastr/graph/time_dependent/mod.rs`
* `engine/src/experiments.rs`: experiments, reporting, import or user interface
* `engine/src/experiments/catchup.rs`: experiments, reporting, import or user interface
* `engine/src/experiments/chpot.rs`: experiments, reporting, import or user interface
* `engine/src/export.rs`: experiments, reporting, import or user interface
* `engine/src/lib.rs`: module declarations
* `engine/src/main.rs`: experiments, reporting, import or user interface
* `engine/src/report/benchmark.rs`: experiments, reporting, import or user interface
* `server/src/main.rs`: experiments, reporting, import or user interface
* `tdpot/src/lib.rs`: module declarations
* `utils/src/lib.rs`: module declarations
* `visualization/src/lib.rs`: module declarations
<!-- coverage end -->

## 4. Plan per property

| id | modelled | proof |
| --- | --- | --- |
| C01 | `InRangeOption` over a type with a sentinel | case analysis |
| C02 | `NodeOrder` on lists | permutation / injectivity on finite lists |
| C03 | `TimestampedVector` with epoch modulo 2^32 | refinement to a function `index -> value`; invariant "timestamp > current => data is default" |
| C04 | `AtomicDists` (sequential histories; the atomics are `Relaxed` and per-entry) | same refinement |
| C05 | `ClearlistVector` | invariant: non-default entries are in the clear list |
| C06 | `BitVec` on 64-bit words (`Nat` bit operations) | refinement to a set of indices |
| C07 | `FastClearBitVec` | invariant: non-zero words are in the clear list |
| C08 | `RankSelectMap` | counting lemmas on blocks and words |
| C09 | `InvertableRankSelectMap` | counting lemmas, select = inverse of rank |
| C10 | `IndexdMinHeap`: arrays, sift up, sift down | heap-order and position invariants, refinement to a map id -> key |
| C11 | doc comment of `decrease_key` | expected false: negation by witness, plus what does hold |
| C12 | `Heap` | heap-order invariant, refinement to multisets |
| C13 | `FirstOutGraph` construction and iteration | list lemmas |
| C14 | `reversed` (counting sort with shifting) | loop invariant, permutation of arcs |
| C15 | `permutated` | list lemmas, distance invariance from an arc bijection |
| C16 | `ch_split` | membership / multiset equality |
| C17 | `unify_parallel_edges` | loop invariant on the cache |
| C18 | `line_graph` | membership; correspondence of walks |
| C19 | byte encoding, `Load`/`Store`, `Deconstruct`/`Reconstruct` of graphs, orders and CCHs | round trip |
| C20 | `DijkstraRun` + `Server::distance` over the heap and timestamped vector of C10/C03 | the classical invariant, termination by settled nodes |
| C21 | `node_path`, `edge_path` | predecessor invariant |
| C22 | servers as state machines | the post-state of a query satisfies the pre-condition of the next; answers are determined by the specification |
| C23 | checked additions | `some` results of C20, C26, C30, C31 |
| C24 | `one_to_all`, settle order | C20 without early stop |
| C25 | the same loop with a potential | invariant with reduced costs |
| C26 | bidirectional server | two copies of the Dijkstra invariant and the meeting argument |
| C27 | `ALTPotential` | arithmetic on truncated distances |
| C28 | CCH contraction | induction over the contraction order |
| C29 | `build_elimination_tree` | from chordality |
| C30 | `customize_basic` | lower-triangle inequality invariant; up-down paths |
| C31 | CCH query | elimination tree walk = minimum over ancestors; pruning |
| C32 | `unpack_path` | well-founded recursion on the lower triangle |
| C33 | arbitrary schedules of node steps | confluence: each step writes own edges only, reads finished ones |
| C34 | perfect customization, rebuild, queries on the smaller graphs, any schedule | induction from the top; a shortest up-down path survives the removal (induction on the length, then on the arcs) |
| C35 | chunked rebuild | loop invariants for both versions; negations for small edge counts and isolated lowest node |
| C36 | `always_infinity`, `remove_always_infinity`, `to_directed_cch`, `customize_directed` (sequential, and every order of the nodes with any workspaces), queries on the results | an edge finite under some metric is 0 under the zero metric; customizing a selection of edges that contains all finite ones gives the same finite weights and unpacking triangles (induction over the nodes); negation for perfect customization |
| C37 | `SeparatorTree`, `to_ordering` | permutation |
| C38 | `ContractionGraph::new`, `contract` with the witness search as it is (capped bidirectional Dijkstra on the remaining graph with recycled data), `from_contracted_graph`, `Server::distance` | one contracted node: arcs do not get longer, every pair of neighbours keeps a path, every new arc is a path; induction over the nodes gives a hierarchy. The query loop: both searches are Dijkstra runs; the minimum over settled nodes. Success without overflow is proved if all arcs are shortest paths |
| C39 | CH `path` | false: it never returns a path between different nodes |
| C40 | `CCHPotential` (walk on the backward graph, lazy evaluation down the elimination tree), `CHPotential` | memo invariant: every known value is the capped minimum over up-down paths and known nodes are closed upwards |
| C41 | Dijkstra nearest neighbour, `LazyRphastNearestNeighbor` (over any exact potential), `SeparatorBasedNearestNeighbor`; std `BinaryHeap` as a multiset | from settle order (generic lemma for loops over settled nodes); invariant of the heap; counterexample for the separator based variant |
| C42 | `RPHAST::select`, `RPHASTQuery::query`, `RPHASTResult::distance` over any hierarchy (`Spec.HierarchyOf`), in particular a customized CCH | invariant of the restricted graph; loop over settled nodes; sweep in order of ids |
| C43 | `HubLabels::new`, pruning, `dist`, `hub_and_dist` (node ids are ranks) | For every hierarchy without infinite arcs (`ExactHierarchyOf`) and upward paths of length at most `INFINITY` (otherwise the sums overflow): labels of processed nodes are sorted upward paths and cover all up-down paths; pruning keeps a hub of minimal sum (`pruned`). Corollary for CCHs with small finite weights. |
| C44 | PLF `eval` | integer division lemmas |
| C45 | range bounds | same; negation for upper bound tightness |
| C46 | live graphs | case analysis |
| C47 | TD Dijkstra | Dijkstra invariant with FIFO functions |
| C48 | tail lookup | binary search + duplicates |
| C49 | metric merging | schedule independence of the minimum |
| C50 | `filter_covered` | list induction |
| C51 | `Interleave`, sweep | list induction |
| C52 | potential wrappers | state machine refinement |
| C53 | `fix_order_and_build` | the new order is a postorder of the elimination tree, which keeps the chordal completion; subtrees become ranges |
| C54 | the same, with crash points between and within writes on a small file system | case analysis over the crash points |
| C56 | `overlay` | soundness of every arc; false: negation by witness |
| C57 | `TopoDijkstraRun`, `SkipLowDegServer`, symmetric degrees | refinement to the abstract search of C20 with an invariant that allows pending arcs of passed nodes; degrees by induction over the merge |
| C58 | `virtual_topocore` (DFS, Tarjan's biconnected components, connected components of the rest, degree classes), `Server` of ch_potentials/query.rs | totality of the preprocessing by invariants of the DFS and of the component search (potential function over remaining arcs); exactness without core by renaming nodes and C57; negation by witness with core and for the degree classes |
| C59 | `BiDirSkipLowDegRunner::distance`/`path`, `BiDirServer::new`, `BiDirCoreServer::new`, `new_bidir_graphs` | invariant of one search with a set of nodes whose label is current, and of the chain that is followed (events of `TopoEngine`); tentative distance is at most the sum of labels at nodes that are not inside of chains; pruned labels cannot lead to shorter paths; degree classes sound in both directions because the symmetric degree is; negation by witness for `BiDirServer` |
| C60 | `MultiThreadedBiDirSkipLowDegServer::distance`/`path`, `SendTopoDijkstraRun`, `stop_forward`/`stop_backward` | every round of a thread takes the values it reads as an argument (`Env`); invariant of one thread for all such values (events of `TopoEngine`); the sum of labels bounds the number of rounds; atomic rounds as a special case; exactness: negation by witness (an explicit schedule) with and without potentials |
| C61 | `MinimalNonShortestSubPathsDijkstra`: `find_ubs_violating_subpaths`, `tree_find_minimal_nonshortest`, `path_parent`, `reset_path_parent_cache`, `path_dists` | model generic over the two shortest path trees (`Oracle`, `OracleOK`); per tree: what the latest deviation shows (`Shown`); per round: all subpaths not inside the next round are covered (`Both.complete`); cache empty again after every tree; Dijkstra's algorithm satisfies `OracleOK` |
| C62 | `CCHPotentialWithPathUnpacking` (both directions, `FLIP_UNPACKING`), `MinimalNonShortestSubPaths::find_ubs_violating_subpaths` | invariant of the state for any hierarchy whose edges unpack to lower triangles (`PInv`, `HOK`); `unpack_path` by induction over (number of nodes nearer to the root, lower end of the edge); instance of `OracleOK` of C61; perfectly customized CCHs satisfy `HOK` in both directions; answers carried over from ranks to nodes |
| C63 | model `Model/FixSubPaths` (`fixOnce`, `fixLoop`, `findNaive`, `pathStat`) on the CCH trees of C62; spec `Spec/FixSubPaths` (`NoViolation`, `ShorterPath`, `LocalOptimality`, `MaxDetour`); proof: invariant that the pushed nodes replace a prefix of the path and save at least one unit per repaired range, so the length of the path bounds the number of rounds; statistics from the completeness of the calls of the closure in C61 for every monotone criterion. The floating point ratio is modelled as an exact fraction. |
| C64 | Model: `Model/ForbiddenPaths` (bit sets, forbidden path store, link, debug test), `Model/MultiCrit` (label heap, merge with dominance, settle, requeue), `Model/TrafficAware` (search, path extraction, blocking loop, query). Proof: abstract label search with a dependency order between labels (`MultiCritAbs`), refinement by the data structures (`MultiCritMerge/Run/Search`), extraction (`MultiCritPath`), walks followed by the bit sets contain no forbidden path and simple walks without one are followed (`ForbiddenStep`), found paths are pairwise different and finitely many (`TrafficAwareQuery`). Both builds |
| C65 | Model: `Model/HeuristicTraffic` (TopoDijkstra with a link operation that sees the predecessors, forbidden detours, blocking loop, query). Proof: whatever the operation refuses, labels are upper bounds of the lengths along predecessor trees (`HeuristicSearch`), so extracted paths are simple and at most as long as the label (`HeuristicPath`); the check of the last round is exact (C62). Refutation: searches do not depend on timestamps and forbidding a path twice changes nothing (`HeuristicSim`), so one repeated round of a concrete query repeats for ever |
| C66 | Model: `Model/TdAStar` (TDPotential, its wrappers, SkipLowDegServer). Contract `TimedPotential`. Proof: without skipping, the relaxation is that of Dijkstra's algorithm (`relaxEdge_plain`); invariant `Inv`: labels are arrivals of walks, every finite label is queued with an admissible key or has been relaxed with its current value or cannot be part of a walk in time; hence some queued node lies on an optimal walk with a key at most the optimum. Every settled node decreases `meas`, hence termination. Wrappers: the contract is transferred |
| C67 | Model of the preprocessing (lower bounds per range, merging, customization, upper bounds, filter by lower ≤ upper), of the choice of ranges per query, the pruned walk from the target and the memoised potential with one index per node. Proved: filtered graphs keep all arcs of all earliest-arrival paths (an arc whose lower bound exceeds the customized upper bound cannot be on one); invariant of the memo (value valid from the start of its range on); contract of C66. Negative: departures on later days. |
| C68 | Model of `Reporter` with its stack; a guard is a call at its creation and one at its drop. Spec: a tree of actions and the JSON tree it denotes. Proof by mutual induction over the tree with a statement per place (object, list, capture, blocked); the same induction shows a panic for every context or collection directly within a capture. False in full for that reason: `C68_report_tree_partial` and `C68_capture_panics`. |
| C69 | Model of the event iterator and of the state machine; floating point operations are arbitrary functions. Proof: the events are each link followed by its positions; invariant: links with an estimate, followed by the links pending in the state, are the links so far. Negative: links used twice, or no position on the last link. |
| C70 | Model of `index_range`, `non_wrapping_seg_iter`, `average` and `Server::new`. False in full: windows across midnight panic for every function (so the server panics for every graph with an arc), cut segments are weighted by the values at their full ends, constant functions panic. Proved: for other windows the value lies between the values of the break points around the window (cut segments add up to the window). |
| C71 | Model of the three methods with the edge id maps; the searches are a parameter that may answer differently each time. Proved by an invariant of the rounds: only edges at nodes to be reset have changed, no weight has shrunk, an edge gets at most a hundredth of the first distance per visit of one of its ends; the rounds end as each raises a counter that is at most five. False in full: see §6. |
| C72 | Model over rational numbers, `EPSILON` a parameter; theorems for `EPSILON = 0`. Linking: invariant of the loop (the points so far are the composition up to the last point, both cursors stand at the next breakpoints), composition of two lines is a line, the number of steps is bounded by the breakpoints of both functions within a day. Debug assertions are proved. False for inverse evaluation on later days. |
| C73 | Model over rational numbers, the tolerances are parameters; theorems for tolerance zero. Both kinds of functions are cursors that walk over consecutive segments (`MCur`). The tests of orientation are comparisons of values or slopes (`FlMergeGeo`). Invariant of the loop: the points so far are the minimum up to the last point, from there to the current time the minimum is the line of the better function's current segment, and the better function stays better for some time. The sweep shows dominance if it finds nothing. All debug assertions are proved, except the last ones for a constant minimum, where they panic. |
| C74 | Model over rational numbers; tolerance `APPROX` is a parameter, `EPSILON` is zero in the theorems. Induction over the recursion: the times of the result are those of some points of the function (`Sk`: the function differs from the line through these by at most the tolerance), the result is those points moved to one side by at most the tolerance, and stays on that side (`Sd`). Joining two parts at a shared point, tying the ends together and repairing overtaking move points further to the same side, but not further than the tolerance, because the function itself is periodic and without overtaking. |
| C75 | Model over rational numbers. Invariant of both sides of the corridor query (`DInv`): upper bounds belong to trips, lower bounds are below every tight up-down path, labels keep the arcs of such paths. The masks and potentials then contain an optimal path (`PathOK`). Search: distances belong to trips; each node with a distance not above the earliest arrival waits in the queue or is closed; walking along the optimal path shows that the target is reached in time. The search ends, because every distance is the length of a walk over distinct nodes (finitely many values). `C75_triangles_partial`: roads and lower triangles suffice; the earliest arrival exists (loops are removed), tight paths exist (induction over the number of nodes reached earlier), and valleys are replaced by arcs. |
| C76 | Model over rational numbers. `combine_spec`: the combined list selects, at each time, the old source where the own function is faster and the triangle elsewhere. `merge_ok`: the new function is the minimum (C73, C72), its sources evaluate to it, the upper bound stays valid; skipped triangles are not faster or infinite. Invariant of the main loop: functions of finished arcs (ghost), which are still available while their head is not finished; candidates (road, lower triangles of kept arcs) are not faster; sources refer to kept arcs from lower nodes. Compaction: rank of kept arcs. Evaluation by induction over the tail. With `C75_triangles_partial` the end-to-end statement. With pre-customization (C81) the invariant also says that switched-off shortcuts have infinite lower bounds, so that triangles with them are skipped, that functions are never below the static lower bounds, and that shortcuts marked as constant have constant functions. |
| C77 | The model of C75 with parents. Invariant of the search (`PInv`): every node that waits or whose distance differs from the preset one has a chain of parents back to the source (`Tr`), over arcs that, left at the distance of the parent, arrive not later than the distance of the node. A new parent cannot close a cycle, because distances do not fall along a chain and the new distance is strictly less than the old one; lowering a distance keeps the chains through it, because arcs are FIFO. The target is not left at its preset distance, as this is above the earliest arrival. Unpacking the chain gives an itinerary. `C77_customized_partial`: arcs of the customized hierarchy can be unpacked (induction over the tail as in C76). `C77_lazy_panics`: witness of C75. |
| C78 | Model of the search over the rationals with evaluation from C72 and the queue of C75. Invariant with the list of settled nodes: the queue holds exactly the reached nodes that are not settled, no settled node has a later arrival than one in the queue, distances are arrivals of trips, the predecessor of a settled node was settled before it. A trip either does not beat the distance of its end or passes the queue. `C78_ranks_partial`: the list of settled nodes is the order by arrival; bits of `i & (i - 1)`. `C78_catchup_agrees_partial`: with `C76_exact_partial`, trips carried over to the node order of the hierarchy. |
| C79 | Model of `read_graph` on top of the bit vectors and rank maps of C06 to C09; the weight of a link per direction is a parameter. The arcs are the list both loops meet; place of an arc: prefix sum of degrees plus number of earlier arcs of the same node. Invariant of the filling loop on prefixes of the list; places are distinct and, by counting, all places are taken. Ranks of arcs from the table: one entry per arc. `C79_debug_panics`: universal negative. |
| C80 | Both constructors share the loop modelled for C44; the conversion to seconds follows. Valid functions in milliseconds become valid functions over the rationals; the interpolation, rounded down, lies within one millisecond of the exact one; slices of zipped arrays. Queries: by induction over a trip in seconds there is a walk in milliseconds that is not later (FIFO and rounding down), then C47 and C78. |
| C81 | The static customization: the bounds of an arc are the least of its road's and of the sums over its lower triangles, by an invariant over the nodes. The perfect customization: upper bounds stay bounds of walks, and after the node all triangles are relaxed. Then by induction over what a shortcut stands for (an inductive definition, independent of the code). |
| C82 | Three passes over the state that the main customization leaves (`Fin`). Dominated: the perfect customization's upper bounds are lengths of walks, so a dominated shortcut is at every time strictly slower than a trip. Unnecessary: if each source has a leg that is strictly slower than a trip, so is the shortcut, as who leaves later arrives later (`legs_slow`). Re-enabling, from the top node down: the kept shortcuts are closed under sources (`Closed`), and only grow (`Grow`). The result meets `Fin` again, hence `result_ok`. |
| C83 | Model over rational numbers, with the cursors of C73. The loop of `switchpoint`: the gap between the line and the function is positive up to the previous point and affine on each segment (`switch_step`); it ends, as the line leaves the range of the function (`Reach`). `intersectionPoint` gives the zero of the gap (`point_spec`). The two or three points of the report interpolate to the line (`report_chain`). The offsets: invariant of the fold over the arcs (`LInv`). |
| C84 | Lockstep with the model of plain perfect customization (`VSim`, `foldlM_sim`): same weights, and each stored pair is in the closure `AddedUp` of the given pairs. Meaning: induction on `AddedUp`. Schedules: the step for a node reads only edges of the node and of its upper neighbours and writes only edges of the node (`validNode_alike`); induction from the top (`vrun_same`). |
| C85 | Invariant `Found` of the search: the new marks are distinct nodes that lead to the target, the counter counts them, and unless it gave up all predecessors of new nodes are marked (`dfs_ok`, induction on the stack left; a call at depth d has counter at least d). Exactness: a closed set of marks contains all nodes that lead to the target, and has at most 200 elements. Servers are arbitrary state machines (`AnyServer`). |
| C86 | Invariant `SInv`: flags of processed arcs agree with the inductive definition `Unpacks`, the others are unchanged; a step reads only processed arcs. Induction over arcs of a node and over the nodes. |
| C87 | Positions of the cursor are numbered through all days (`tm`, `cu`): starts of sources grow, what is active at a time has a position (`active_pos`), the cursor starts at or before it (`validAt_ok`) and the loop passes it or stops after the last report (`scan_ok`). Then induction over arcs and nodes with `Holds` as meaning of the stored time. The bound on iterations comes from the positions. |
| C88 | Simulation by two ordinary potentials of C40 that run beside it: one with the lower bounds (equal values), one with the live upper bounds (values not smaller), so their exactness carries over (`walk_sim`, `popAll_sim`). The meaning of the upper bounds is an invariant kept by each arc (`Good.comb`): the trip found so far reaches the tail not before departure plus lower bound, hence at a time for which the chosen upper bound holds. |
| C89 | Refuted: `C89_not_a_lower_bound` gives roads, data that fits (`Fits`), and four questions at times at which the nodes are reached. The run is evaluated by the kernel. `C89_slower_trip` gives roads, data that fits and a query of time-dependent A* with this potential that reports 9 hours although a trip takes 7. What is missing: a positive theorem for histories in which this cannot happen, for example questions with times that do not decrease. |
| C90 | `C90_no_missing_estimate_is_read`: the model takes what an unchecked read of a missing estimate yields as a parameter, and the results of all histories do not depend on it, also if it is a panic. Invariant: nodes with an estimate have parents with one; a stack of `potential` from its top keeps it. |
| C55 | the bidirectional server with `symmetricBi`, `averageBi` | false for `AlternatingDirs` (both pruning variants) and `averageBi`: negations by witness; for the symmetric potential with `ChooseMinKeyDir` proved (`C55_symmetric_minkey_partial`, `_path_partial`): invariant with ghost 'pruned' bits, a part of a shortest walk between two queued nodes with exact labels, and acyclic predecessor chains; hypothesis: the `u32` sums of the search do not overflow |

## 5. Assumptions recorded in the statements

* **File system** (`Spec/FileSystem.lean`). Files are byte lists; `File::create` empties a file, `write_all` appends; a crash keeps
  what was written so far and does not reorder writes. Files do not change between the length check and the read. Records have
  the little endian representation without padding.
* **Unstable sorts** are parameters. `SortOK` / `SortsBySize` say what the standard library promises: a sorted permutation. Insertion
  sort meets the assumption (`isort_ok`), so it is not vacuous. For integers the result does not depend on the sort.
* **Slices in parallel code.** `split_at_mut` gives each task a slice of its own; that two tasks cannot touch the same slice is
  Rust's guarantee. That all accesses of a task stay in its slice is proved (C33): `inSlice` is part of each step and never fails.
* **Graph well-formedness.** `FOGraph.WF` is what `FirstOutGraph::new` asserts plus: heads are nodes, `first_out` is monotone,
  sizes fit `u32`, weights are at most `INFINITY`.
* **Potentials for searches that skip nodes** (C57): a potential that is defined at the head of an arc is defined at its tail. A potential that
  answers `None` because sums near `INFINITY` are cut off could break this.
* **Searches behind the alternative routes** (C71, `Spec/PenaltySearch.lean`). The bidirectional search over the core is a parameter `ask`.
  `SearchOK` says what a call gives: a route of the current graph from the source to the target without repeated nodes, with the
  distance of the current weights; the first call is exact, which the debug assertions of the code rely on; routes are at most
  42949672 ms long, a longer one overflows in the code (`C71_long_routes_panic`). `SubOK` says the same of the part searches.

## 6. Disagreements between the code and its documentation or use

Found while modelling; each one is proved with a witness where the code is modelled.

* `IndexdMinHeap::decrease_key` is documented to "only update if the new key is smaller". It overwrites in every case (C11).
* Reversing a graph behind `InfinityFilteringGraph` panics as soon as an arc is filtered, because the number of arcs is not (C14).
* `unify_parallel_edges` starts each minimum at `INFINITY`, so weights above `INFINITY` are lowered to it; `FOGraph.WF` excludes
  such weights (C17).
* `line_graph` counts turns in an `i32`: more than 2^31 - 1 of them overflow (C18 assumes fewer).
* `validate_for_parallelization` panics on the graph without nodes: `num_nodes as u32 - 1` is evaluated even if it is not
  needed (C53, `SepExample.empty_rejected`).
* `BitVec::set_all` also sets the unused bits of the last word, so `count_ones` (and `len` of a rank map built from it) exceed the
  length unless it is a multiple of 64 (C06, `C06_set_all_counts_padding`).
* `InvertableRankSelectMap::inverse` relies on `slice::binary_search` returning the *last* of several equal prefix sums. The
  documentation promises some match only. The standard library returns the last one since Rust 1.82; the search of Rust 1.52 to
  1.81 lets `inverse` panic (C09, `C09_any_match_is_not_enough`). Nothing in the repository pins a Rust version.
* `BitVec::new(0)` calls `alloc_zeroed` with a layout of size zero, which its safety contract forbids (not modelled).
* A stored `BitVec` loads with its length rounded up to a multiple of 64 (C19, `C19_bit_vector_length_not_kept`).
* Files are overwritten in place and carry no length or checksum. An interrupted overwrite of a graph can leave a mixture of two
  graphs that loads (C54, `C54_overwriting_can_mix`); an interrupted node order can load as an order of fewer nodes
  (`C54_interrupted_order_can_shrink`).
* `CCHReconstrctor` reads the node order from the directory, but `Deconstruct for CCH` does not store it there; the caller has to
  (C19, `C19_cch_round_trip` stores both).
* The bidirectional server returns the label of the target as soon as the forward search settles it. With
  `SymmetricBiDirPotential` with improved pruning and `AlternatingDirs` (used by `engine/src/bin/chpot_scaled_bidir.rs` and
  `chpot_bidir.rs`) this label can be outdated although a shorter connection is already known: wrong distance (C55,
  `C55_symmetric_alternating_wrong`). The same happens without improved pruning (`C55_symmetric_alternating_basic_wrong`).
* `AveragePotential` cuts averages off at 0, and its stopping criterion ignores this: with consistent but weak potentials the
  search can stop too early: wrong distance (C55, `C55_average_wrong`).
* `ALTPotData::new` panics without landmarks (C27, example beside the theorem). `new_with_avoid` (random roots, not modelled)
  asserts in debug builds that the random root reaches every node, and its descent `while predecessor(l) == v` does not end when
  the root has a self loop that was never relaxed away (its predecessor entry is itself) and is the heaviest node.
* `PotentialForPermutated` as a `BiDirPotential` forwards `stop_forward` and `stop_backward` to `stop` of the wrapped potential
  (`a_star.rs:159-164`). For `SymmetricBiDirPotential`, which distinguishes the three, the parallel bidirectional query
  (`ch_potentials/query.rs:1103`, `1155`) would use the wrong criterion when wrapped (not modelled).
* `filter_covered` misses containment when a range ends before it starts (C50, `C50_needs_ordered_ranges`; its callers only pass
  ordered ranges).
* `metric_merging::merge` sums squared differences in a `u64`. Five arcs closed (`INFINITY`) in one metric and open in the other
  overflow it (C49, `C49_needs_bound`): a panic in debug builds, a wrong order of merges in release builds.
* `time_dependent::Graph::new` repeats the travel time of the first break point at time 0 and at the end of the period, whenever the
  first departure is not 0. This can break FIFO of a function that obeys it (C44, `C44_normalize_moves_points`): evaluation then
  overflows (panic in debug builds).
* `upper_bound_in_range` starts its maximum at `INFINITY` (copied from the lower bound), so it never returns less for functions with
  more than one break point (C45, `C45_upper_bound_never_attained`). Nothing in the repository calls it.
* `lower_bound_in_range` is no lower bound for ranges that end after the next period (C45, `C45_needs_short_range`).
* `PessimisticLiveTDGraph::live_lower_bound` is no lower bound if live traffic ends within the range (it ignores the live part; and
  if it ends exactly with the range, the result is `INFINITY`) (C46, `C46_live_lower_bound_wrong`, `C46_live_lower_bound_at_end`).
  `td_astar.rs:252` and `traffic_aware/td_traffic_pots.rs:153` build potentials from it.
* `SeparatorBasedNearestNeighbor` returns wrong neighbours: the bound of a cell is the smallest distance to the boundary of the cell, also
  for the cell that contains the source, where it is no bound. The cell of the source is skipped when enough targets at that
  distance are known (C41, `C41_separator_based_wrong`).
* Nearest neighbour queries with `k = 0`: the Dijkstra variant may return one target (C41, `C41_zero_neighbours`), the variants with a
  `BinaryHeap` panic on the first reachable target (`C41_lazy_zero`).
* `rebuild_customized_perfect`, parallel branch: with `k = 4 * threads` tasks it panics if the chunks of `ceil(m / k)` edges do not reach all
  `k` tasks (`m <= (k - 1) * ceil(m / k)`, e.g. 7 edges and two threads, or 9 edges and one thread; `C35_rebuild_panics`). If the node of rank 0
  has no upward edge, `first_out` is shifted by one node (`C35_not_independent`). The sequential branch is correct; in debug builds its
  `debug_assert!(weight < INFINITY)` can fail on edges usable in one direction only (not modelled).
* `SeperatorBasedPerfectParallelCustomization::new_with_aux` validates the separators only if `cch-disable-par` is set, that is, when there
  is no parallelism; the basic customization does it the other way around. C34 therefore has the validity as a hypothesis.
* Hub labels: the sum of two chains with `INFINITY` arcs may exceed `u32` (C43 has the bound as a hypothesis).
* Perfect customization after `remove_always_infinity` no longer gives every edge the shortest distance between its ends: removing edges makes
  the graph non-chordal, and upper triangles are missed (C36, `C36_perfect_not_perfect`). The weights are still upper bounds, so fewer edges are
  removed than could be.
* CH contraction panics on graphs with parallel arcs: `remove_outgoing`/`remove_incmoing` remove one of the entries, and the assertion in
  `insert_or_decrease` compares what is left (C38, `C38_parallel_arcs_panic`). The documentation of `contract` does not ask for a simple graph.
* The weights of CH shortcuts are not always distances (a pair of neighbours is looked at before the shortcuts that would be a witness exist), so
  without a bound on the weights of the result C38 is proved for contractions that end without an overflow; if all arcs are shortest paths,
  shortcuts are exact and the contraction cannot overflow (`C38_contract_and_query_exact`).
* `contraction_hierarchy::query::Server::path` never returns a path between different nodes: the inner loop looks up the predecessor of the
  front of the path again instead of the predecessor of the node it unpacks, and so asks for an arc from a node to itself; the end of the
  outer loop compares a rank with a node (C39, `C39_path_panics`).
* `overlay` (used by `export_svg`, `overlay_to_svg`, `export_tikz`): `contract_partially` removes the next node from its neighbours' lists
  before it checks whether the count is used up, so that the overlay has no arcs into the first node that was not contracted (C56,
  `C56_overlay_loses_paths`).
* `virtual_topocore` finds the limits of the degree classes by searching the whole new order for the first node of degree at most two (and
  of degree three). The search goes beyond the core if the biggest biconnected component has no such node, nodes of higher degree behind the core are then
  taken for nodes of degree at most two, and searches lose arcs (C58, `C58_degrees_refuted`). It also stores symmetric degrees in a `u8`, so
  that degrees of 256 and more wrap around, and panics (`unwrap` of a maximum) on a graph without nodes.
* `Server` with `BCC_CORE`: the search in the component of the source stops as soon as the smallest key reaches distance plus potential of the bridge
  node. The following searches reinitialize the queue, whatever it still held is dropped, and nothing continues at nodes whose labels do not improve again. A path
  that stays in the attached component but starts at the bridge node is lost: the server reports None although there is a path, with exact
  potentials too (C58, `C58_core_refuted`).
* `BiDirServer`: `new_bidir_graphs` removes the arcs from core nodes to other nodes from the forward and from the backward graph. The backward graph is
  already reversed, so both searches can enter the core but not leave it, and the search without potentials ends as soon as one queue is empty, which may be
  before the other search has reached the core. With `ChooseMinKeyDir` and no potential the server reports None although there is a path (C59, `C59_server_refuted`). `BiDirCoreServer`, which
  keeps all arcs, is exact.
* `BiDirSkipLowDegRunner` with `SymmetricBiDirPotential` and `AlternatingDirs` inherits the defect recorded for C55; with improved pruning the search does not stop
  when the target was reached only inside of a chain, so the overflow condition of C59 is stronger than that of C55.
* `MultiThreadedBiDirSkipLowDegServer` can report a distance that is too long (C60, `C60_exact_refuted`, `C60_symmetric_refuted`). A chain may run through the other
  terminal, or through a node labelled by the other thread, without a callback. The single-threaded server looks at the labels of the terminals in the end; here a
  thread does so only if it has found no meeting node. With source and target next to each other inside a chain, both threads pass the other terminal at once,
  then meet on a longer path and report that one. In experiments (not proved) all wrong answers had a terminal inside a chain.
* All accesses of the two threads are `Relaxed`. The label is stored before the label of the other thread is loaded, but on other locations, so both threads may miss
  the store of the other one; nothing orders the progress values with the labels. Soundness (C60) does not depend on it.
* `find_ubs_violating_subpaths` contains `debug_assert!(shortest_dist > 0)`: with arcs of weight 0 a build with debug assertions panics on valid paths
  (`C61_zero_weight_debug_panic`); without debug assertions C61 holds for such graphs, too.
* `CCHPotentialWithPathUnpacking::unpack_path` needs positive weights: it sets the parent of the middle node of a shortcut again, and with arcs of weight 0
  this can close a cycle (`C62_zero_weight_cycle`: the parents of 2, 1, 3 become 1, 3, 2). Then the loops that follow the parents do not end
  (`fix_violating_subpaths`) or leave the path ranges (`C62_zero_weight_no_answer`), while the variant with Dijkstra's algorithm answers.
* `find_ubs_violating_subpaths_lazy_rphast_naive` panics on an empty path (`path[..path.len() - 1]`, `C63_naive_empty_path`) whereas `find_ubs_violating_subpaths` does not; `local_optimality` and `suboptimal_stats` panic on every path that visits a node twice (`C63_stats_repeated_node`), which callers have to rule out.
* The result of `suboptimal_stats` is modelled as an exact fraction; rounding of the `f64` division is not modelled.
* C64: debug and release builds of `add_forbidden_path` store different paths: the debug test returns early when a part of the path is already forbidden, so nested loops of one path are stored only in release builds. In release builds a stored loop may visit an inner node twice; its two visits share one local id, so the bit set can follow the loop in a wrong order and block walks that do not contain it. Only walks that return to the first node of the loop are affected, so answers do not change (proved for both builds). The debug panic `path already forbidden` is proved unreachable from `query`: a found path never contains the same loop twice, since it could be cut.
* C64 needs positive weights in both metrics (`cchpot_traffic_aware` raises the usual weights to 1 and asserts positive live weights) and that no simple path reaches INFINITY in either metric (sums of distances are `u32` and lower bounds are compared with INFINITY).
* C65: a query of HeuristicTrafficAwareServer may never end (`C65_never_ends`, six nodes). TopoDijkstra passes nodes of degree three without queueing them; such a node can get a new label and predecessor later, while its successors keep labels obtained by the old predecessor. The link operation only checks forbidden paths against the predecessors of that moment, so the extracted path may contain a forbidden part; the loop then forbids it again, which changes nothing. Only the time limit (`TRAFFIC_MAX_QUERY_TIME`, which can be switched off) ends the query, with a failure. For the same reason the reported distance can exceed the length of the route, and `final_live_dist - base_live_dist` (a `u32` subtraction) has no guarantee.
* C66: the theorem is about searches without chain skipping (`SKIP_DEG_2 = SKIP_DEG_3 = false`) and needs that potential values do not grow during a query: a node that is already queued gets a smaller label by `decrease_key`, which is a no-op (or breaks the heap, see C11) if the key became larger because its potential grew more than the label fell.
* `MultiMetric` (td_astar.rs l.503, l.562): `init` reduces the departure modulo the period, but `potential` compares the labels of the search, which are not reduced, with the ranges. On later days a range can be chosen that does not hold for the rest of the way. `C67_later_days_fail` has a query whose answer is 5 minutes too long. Ranges of nearly a day are needed for that.
* `MultiMetric::new` and `IntervalMinPotential::new` split the edges into tasks like `rebuild_customized_perfect` (C35), with the same failures: a panic if there are fewer edges than tasks, and shifted `first_out` if the node of rank 0 has no upward edge.
* `MultiMetric::potential` asserts in debug builds that times are below two periods; slow arcs or late departures violate that although release builds work (C67 is about release builds).
* `MultiMetricPreprocessed::new` stores indices of ranges as `u16` without a check: from 65536 ranges on, metrics are mixed up (C67 assumes fewer).
* `MultiMetric::init`: if departure plus upper bound is `INFINITY` or more, no range includes the latest arrival and `current_metrics[0]` panics (C67 assumes that n arcs and a day stay below).
* `Reporter::pop_context` (report.rs l.198-249) accepts only `Object` below a `Key`, but `create_object_under_key` and `create_collection_under_key` push `Capture` below it when called within a capture, and the former leaves a `Capture` as current context. Each context or collection directly within a capture therefore panics with "Inconsistent context stack" when it is dropped (`C68_capture_panics`). The only capture in the repository (ch_potentials/td_query.rs l.138) contains plain reports only.
* `EventIterator` (event_iterator.rs l.52-84) compares ids only. If a link is used again with only links without positions in between, the positions of the second visit are attributed to the first one and the remaining links are dropped without an error in release builds (`C69_links_lost`). Debug builds assert that at most one link is left over; the one already fetched into `next_link` is dropped in debug builds as well, so a last link without positions never gets an estimate.
* `PiecewiseLinearFunction::average` (piecewise_linear_function.rs l.35-37) does not reduce the part of a window behind midnight modulo the period, so it is looked up behind the last break point and the slice is out of bounds. `time_dependent_sampling::Server::new` uses a window from 22 to 5 o'clock and therefore panics for every graph with an arc (`C70_sampling_server_panics`); the binary `tds` cannot work.
* `average` uses the travel times at both ends of a segment for any part of it that lies in the window, so the average over a window can exceed all values within it (`C70_average_wrong`: 55 minutes, although the travel time stays below 11.25 minutes). Constant functions with one break point make it panic.
* `Penalty`/`PenaltyIterative` (penalty.rs l.138-155) divide by the length of the current path: a shortest path of length zero (weights of zero occur in road data) makes the query panic (`C71_zero_length_panics`).
* `sharing_percent` (penalty.rs l.423, l.765) multiplies a distance in milliseconds by 100 in `u32`: the query panics (with overflow checks) if the alternative has more than 11.9 hours in common with the routes before (`C71_long_routes_panic`). `d * 25` (l.222) overflows at 47.7 hours.
* An alternative returned by `PenaltyIterative` starts and ends where source and target are attached to the core; the parts outside the core are missing (`C71_other_source`). If source and target lie in the same part outside the core or this part is not attached, nothing useful is returned.
* `Penalty::alternatives_iterative` returns nodes in the internal numbering of the server, `PenaltyIterative::alternatives` translates them back (`C71_other_numbering`). It also returns a last path that exceeds the limit on the length, as the limit is checked after the path was added; the same holds for the graph of alternatives (l.234).
* `PeriodicPiecewiseLinearFunction::inverse_evaluate` (piecewise_linear_function.rs l.88, l.107) adds `p`, the number of days from `split_of_period`, to a time in seconds; it should add `p` periods. Departures for arrivals on later days are wrong (`C72_inverse_later_day`). `inverse_evaluate_path` is used for the points where the best path changes (`shortcut_source.rs` l.383, l.417): if the first part of a path ends after midnight the change of the second part is put at a wrong time.
* `merge_in_bounds` (piecewise_linear_function.rs l.1164-1167) asserts on `result[1]` and `result[result.len() - 2]`; for a periodic merge with a constant minimum the result may have one point, then debug builds panic (`C73_constant_panics`): a constant of 600 s and a function that is 600 s until 6:00 and slower afterwards. Release builds return the right function.
* Lower bounds can be negative (`C74_lower_negative`): points are moved down by up to the tolerance (1 s) without a limit at zero. `append_point` asserts `val >= 0`, so debug builds with `tdcch-approx` panic when such a bound is linked; release builds go on with negative lower bounds.
* `approximate`, `bound_ttfs`, `lower_bound_ttf` and `upper_bound_ttf` panic for constant functions (`C74_constant_panics`, `try_from(self).unwrap()`, piecewise_linear_function.rs l.337, 348). The callers (shortcut.rs l.163, 203) test the number of points of the lower and the upper bound together, so a constant bound next to one with more than `APPROX_THRESHOLD` points would panic.
* Lazy relaxation (`tdcch-query-lazy`, on by default) makes CATCHUp return wrong answers (`C75_lazy_wrong`). Relaxing a shortcut descends to its first segment, marks the upward arcs that have to follow as relevant (`relevant_upward`) and relaxes only the end of the segment. If that end was already settled and is not reached earlier than before, it is not put into the queue again, and the newly marked arc is never relaxed. This happens if two ways to the end of the shortcut are equally fast (a road with slope -1, so that leaving later does not mean arriving later): the way that the shortcut stores reaches the node in the middle later than another way. In the witness (six nodes, seven roads, all functions valid) leaving at 1005 one can arrive at 1120, the query returns 221.500001 s instead of 115 s: the preset upper bound of the corridor plus the tolerance, which is the arrival of no trip; the parent pointers of the target are not set by this query. Without the feature the same query returns 115 s.
* With lazy relaxation (default) retrieving the path after a query that returned a travel time can panic (`C77_lazy_panics`): in the witness of `C75_lazy_wrong` the returned 221.500001 s are the preset distance of the target, no parent is set by the query, and `Server::path` reads `parents[to]`: on a new server (4294967295, 4294967295), so that the distance of a node that does not exist is looked up; on a used server the parent that an earlier query left.
* **C79**: `LinkIdMapper::local_to_here_link_id` asserts (in debug builds) that the entry for direction `FromRef` is the arc right after finding that it is not (`link_id_mapper.rs:52`, component `.0` where `.1` is meant). In debug builds it panics for every arc against the reference direction (`C79_debug_panics`). Release builds are right (`C79_import`).
* **C80**: the constructor of CATCHUp's graphs has the same clean-up as `time_dependent::Graph::new`, and with it the same defect for functions whose first break point is not at 0 (`C44_normalize_moves_points`): the value at 0 and at the end of the day is the first value of the input, not the interpolated one, and FIFO can be lost. `C80_same_roads_partial` therefore needs break points from time 0 on.
* `UpdatedPiecewiseLinearFunction::evaluate` (piecewise_linear_function.rs l.1762): the debug assertion reads `self.update[0]`, which panics for every road without a live report. In debug builds, a `LiveGraph` can only be evaluated on roads with a report (`C83_debug_panics`). `LiveGraph::t_live` (graph.rs l.334) panics if there is no report at all (`C83_now`).
* `LiveGraph::new` with a report that has already ended (`t_soon <= t_live`): the points of the road are not in the order of time (graph.rs l.270-277). `C83_live` assumes that reports end after the present.
* C89: `IntervalMinPotential::potential` (td_astar.rs:1479-1501) stores for a node the variable `earliest_metric_idx` of the node popped before it, at first the bucket of the departure, as the first bucket for which its estimate holds. If the loop that climbs the elimination tree stops at an ancestor known from bucket 10 on, and the node below cannot be reached before bucket 12, that node is stored as known from the departure on. A later question for a node below with a time in bucket 4 then stops climbing at it, although an ancestor further up is only known from bucket 10 on, and uses the estimate of this ancestor. The answer is too large, so A* with this potential can settle the target too early (`C89_slower_trip`).
