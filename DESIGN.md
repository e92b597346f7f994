# Formal model of gbbs – design

The code under study is `/repo` (ParAlg/gbbs, C++).  It is never built or run; the
model is a hand transcription into Lean 4, function by function, with file/line
citations on every definition.

## Layout

* `lean/Verif/<Area>/Model.lean` – transcription of the code (computable, total).
* `lean/Verif/<Area>/Spec.lean`  – the specification vocabulary used to state the
  properties; it does not use the model's helpers.
* `lean/Verif/<Area>/*.lean`     – lemmas and the property theorems (named `Cnn_...`),
  each followed by an `example` that instantiates its hypotheses.
* `properties.jsonl` – the properties; `MANIFEST.json` – their status;
  `seeded/LOG.jsonl` – the mutation tests done on the model.

## Trusted base

* Lean 4.33.0 kernel, and the axioms `propext`, `Classical.choice`, `Quot.sound`
  (the only ones reported by `#print axioms` on any property theorem).
* The transcription C++ → Lean (each definition cites its source lines).
* `parlay` is not vendored in `/repo`; its primitives (`scan`, `reduce`, `filter`,
  `pack_index`, `sort`, `binary_search`, `parallel_for`, hash functions) are trusted
  to have their documented meaning.  `parallel_for` is modelled either as all
  interleavings (where the code is racy) or, where iterations touch disjoint
  locations, as a permutation of the iterations.
* Memory model: sequentially consistent interleaving of individual loads, stores and
  CASes.  Weak-memory reordering, torn reads of multi-word values, allocation
  failure, exceptions and the C++ compiler are outside the model.
* Machine integers: modelled with their width where overflow/wrap matters to the
  property (encodings, weights, 32-bit ids); elsewhere by `Nat` – stated at the
  definition.
* Concurrent programs: memory is sequentially consistent, each load, store and CAS of the source is one step, and the operands of `==`, `!=`, `&&` are evaluated left to right (C++ leaves the order of the two loads in `parents[rx] != parents[ry]` open; the theorems about unite do not depend on the values read in the loop test except for equality).

## Plan per property

| id | what is modelled | how it is proved |
|----|------------------|------------------|
| C01 | byte encoder/decoder on `List UInt8` streams | induction on deltas (7-bit groups) and on the list |
| C02 | in-place `pack` on one byte array with read/write cursors | length sub-additivity of the code + refinement to list filter |
| C03 | `get_ith_neighbor` | refutation by witness; `_partial` characterisation (returns entry i-1) |
| C04 | `map_reduce` of byte and bytepd | induction; monoid associativity for blocks |
| C05 | bytepd header + blocks | block-wise use of C01 lemmas |
| C06 | `get_block_degree`s | arithmetic; refutation for bytepd at multiples of 1000 |
| C07 | bytepd_amortized header + blocks | as C05 |
| C08 | `seq_merge`, `merge` on sorted lists | strong induction on sizes |
| C09 | `filterf` count/scan/write over an array store | invariant on written prefix; any block order |
| C10–C12 | CAS loops as small-step thread machines | inductive invariants over arbitrary interleavings |
| C13–C14 | bucket structure as a state machine | representation invariant, refinement to "map id → bucket" |
| C15 | the three-phase parallel insertion | counting lemma; equality with sequential insertion |
| C16–C17 | vertexSubset with both optional representations | refinement; refutation by witness for stale representation |
| C18 | block/group index arithmetic of `edgeMapChunked` | partition lemma on monotone sequences |
| C19 | edge map traversals over a claim-style functor | set equality for all interleavings |
| C20–C21 | linear probing tables | probe-chain invariant under all interleavings |
| C22–C24 | edge-list → CSR pipeline | induction over sorted lists |
| C25–C26 | text writer / tokenizer / parser; float rounding of weights | round-trip induction; refutation by witness |
| C27 | transpose construction | counting |
| C28 | graph filtering | per-vertex list filter; offsets from scan |
| C29 | `RelabelIds` | rank function of a finite set |
| C30–C31 | union-find as small-step concurrent programs | ghost link-forest invariant; refutation of UniteRemCAS report by a concrete run |
| C32 | BFS rounds with nondeterministic claims | level invariant |
| C33–C36 | relaxations | invariants; refutation runs for C35 and C36 |
| C37–C38 | peeling | invariant vs. definition of coreness; refutation on the 4-path |
| C39–C41 | rootset algorithms | invariant over rounds |
| C42–C43 | matching | refutation (fixed point of the loop), greedy equivalence |
| C44 | `Kruskal/MinimumSpanningForest.h` with the sequential executions of `find_compress` and `Unite` (`Verif/Algo/Kruskal.lean`, `Verif/Algo/Forest.lean`) | loop invariant; forests counted by components; a forest that spans every prefix of weights is minimal |
| C45 | filtering by rank, work balancing, `CountDirectedBalanced` with the parallel intersection of C30 (`Verif/Algo/Triangle.lean`) | block ranges from the scan; bijection of calls and triangles |
| C46 | `LDD_F`, `LDD_impl`, `generate_shifts` (`Verif/Algo/LDD.lean`) | rely-guarantee for one `edgeMap`, then invariant over the rounds; undefined behaviour is an outcome; shifts in real arithmetic |
| C47 | the scan over the order with both loop schedules, `exit` as an outcome, exact arithmetic for `double` (`Verif/Algo/Charikar.lean`) | every value is `arcs(suffix of i+1)/(n-i)`; refutation by two graphs over all runs; bounds from the degeneracy order `_partial` |
| C49 | `byte::iter`, `intersect_f` on two encodings in one memory | loop invariant; refutation of the memory-safety part by a witness |
| C48 | `speculative_for` loop | induction on rounds |
| C50 | bytepd `pack`/`packBlock` and `filter` on byte memory | block lemma for 1..1000 entries; refutations for degree 0 and > 1000 |
| C51 | bytepd_amortized `pack` and `repack`, with the schedules of their parallel loops as permutations; histories of packs as an inductive relation | layout invariant (ghost: originally encoded blocks), space argument for repack, induction on the history |
| C52 | multiplicity of identifiers in the list returned by `next_bucket` | `Nodup` part of the representation invariant in modes `earlier` and `extracted`; refutations by concrete histories |
| C16 | vertex subsets with both representations, toSparse/toDense with an arbitrary order of the marking loop (`Verif/Subset`) | invariant `Represents` over all sequences of conversions |
| C17 | add_to_vsubset in both branches | invariant for one materialised representation; witnesses of the stale one |
| C53 | vertexFilter in both variants | refinement to filtering the member list |
| C54 | the degree-sum cache of edgeMapData | concrete two-call histories that return the wrong set |
| C20 | sparse_table.h insert/insert_check, contains, find, entries, resize: slots and one program counter per insertion, one step per memory access | invariant over all interleavings (keys unique, probe path before a key is occupied), then lookups by induction on the probe distance |
| C21 | sequential_ht.h insertAdd (both overloads), insertF, find, compactInto | loop invariant `Holds` (each stored key is reachable, value = fold of its insertions) |
| C22 | edge_array.h compute_offsets, graph_io.h sorted_edges_to_vertex_data_array as multisets of single writes applied in any order | every write agrees with the count of smaller sources and every position is written or zero |
| C23 | default n in graph.h from_edges | closed form; witness of disagreement and what remains true |
| C24 | undirect_and_sort, sort_and_dedupe, edge_list_to_symmetric_graph, from_edges; sorts are any sorted permutation | dedupe characterised by a sequential reading; composition with C22 |
| C55 | sparse_additive_map.h insert: slot claim then atomic add | invariant over interleavings; counterexample to termination for a full table |
| C56 | weights through bothDirs, any sort and dedupe | consistent weights are kept; two-edge witness otherwise |
| C25 | graph_io.h write_graph_to_file and graph_io.cc parse_unweighted_graph as functions on character lists; tokenising and digit conversion are parlay (trusted, modelled) | tokens of the written text, then position arithmetic |
| C26 | the same with weights through std::stof (rounding to 24 bits) and conversion to int | round trip for all exactly representable weights; refutation for 2^24+1 and INT_MAX |
| C57 | same parser with the bytes argument | the parser sees an empty text, refutation |
| C30 | all find and unite rules as trees of single loads, stores and CASes (`Conc.Prog`), fuel-bounded loops that end in `stuck` (a stuck or unfinished call proves nothing about itself, the others are unaffected) | rely-guarantee logic (`Conc.RG`, soundness `safe_reach`) with a ghost forest of hooks; memory-level statement `Components` |
| C31 | the return values of the same programs | ghost owner of every hook; `SpanningForest`; counting by a bijection between reports and non-roots; counterexample schedules executed by `run` |
| C58 | the unite phase followed by the loop `parents[i] = find(i)` | second rely-guarantee instance in which the roots are fixed and parents only decrease |
| C59 | the copies of the rules in SpanningForest/UnionFind; `Edges[r]` is written only by the call that reports `r` | as C31; a sequential counterexample for UniteRemCAS |
| C33 | `write_min`, `BF_F`, `BF_Vertex_F`, `BellmanFord`; distances are exact integers with a value for infinity | ghost state records who raised a flag and who lowered a distance without having tried the flag, so the new frontier is exactly the set of lowered vertices; cycle removal by pigeonhole; spec: weighted walks |
| C34 | `Visit_F` at the level of single accesses with the 32-bit encoding of the visited bit in the top bit of the distance, bucket structure, loop (`Algo/Visit`, `Algo/WBFS`) | rely-guarantee proof of one `edgeMapData` for all traversals and interleavings; invariant of the loop over `Reach` of the bucket structure: settled vertices are exact (Dijkstra); progress: each extracted bucket strictly increases the settled set |
| C35 | `Visit_F` at the level of single accesses, bucket structure with `get_bucket(old,new)`, loop (`Algo/Delta`) | refuted by a two-thread interleaving on five vertices (`delta_lost`); for executions with faithful data every lowered vertex is in its bucket after the round and the distances are exact |
| C36 | `Visit_F` of SSWidestPath as a program under every interleaving, `get_bkt`, `get_ring`, the bucket loop | `visit_spec` (rely-guarantee) for one edgeMap, bucket invariant over the loop; refuted by a concrete graph with weight 200 and 128 buckets |
| C37 | `KCore`: bucket loop, histogram in any order, `apply_f` in 32-bit arithmetic, one-argument `get_bucket` | peeling invariant (`Peel`): remaining degrees, core sets of the last `k`; bucket structure through `Reach` |
| C38 | `KCore_FA`: `kcore_fetch_add` as calls in any order, one per edge leaving the bucket, with the emission test of `updateAtomic` (sparse, dense-forward, parallel in-neighbourhoods) or `update` (dense) (`Algo/KCoreFA.lean`) | closed form of a traversal (`fold_spec`); invariant: `er[v]` + removed edges account for the induced degree; result >= coreness for every mode, exact for `update`; refuted on the path 0-1-2-3 |
| C39 | rootset MIS: `GetNghs` (`EdgeMap/Zero.lean`) and `mis_f` with `fetch_and_add` as a CAS loop (`EdgeMap/Count.lean`), each within one `edgeMap` in any traversal and interleaving; the loop (`Algo/MIS.lean`). The counting client needs every edge processed exactly once (`EdgeMap/Once.lean`; parallel edges distinguished by tags) | rely-guarantee proof that one traversal lowers every live counter by its number of counted edges and emits the zeroed ones once (`count_round`); loop invariant: counter = live earlier neighbours; result = greedy set of the permutation, which is unique and a maximal independent set |
| C40 | `Coloring`: `color`, priorities, loop with `coloring_f` (`Algo/Coloring.lean`); roots coloured in parallel, every read sees the old or the new colour; the degree key is an arbitrary function | as C39; two roots are never adjacent, `color` differs from every colour read (pigeonhole for the fallback colour) |
| C41 | same model | colour <= deg + 1 for every execution; refuted on one edge |
| C43 | `matchStep::reserve`/`commit` as programs over `R`, `matched` and the marks, run by the model of `eff_for` (`Verif/Spec/Match.lean`) | rely-guarantee for each of the two loops of a round gives the exact effect of a round (free edges reserve, those first at both ends are matched, all reservations withdrawn); induction over the rounds gives the greedy matching |
| C60 | the call of `eff_for` in `MaximalMatching` | false as stated; round counting; see below |
| C42 | `get_edges`: degrees, scan, search for the vertex of an index, extraction, blocks (`Verif/Spec/GetEdges.lean`); searches of parlay by their specification; an endless loop is the outcome `more` for every bound | invariant of the block loop; exact condition for the hang |
| C61 | `MaximalIndependentSetstep` with the model of `eff_for` (`Verif/Spec/MISStep.lean`) | invariant on the flags over the rounds |
| C62 | the loop of `DegeneracyOrder` over the bucket model of C32 (`Verif/Algo/Degeneracy.lean`) | invariant on the order so far next to the peeling invariant |
| C63 | `DegeneracyOrderWithLoad`: same loop, order initialised with n zeros | refutation for every graph and load; second half `_partial` |
| C64 | the rounds of `GreedyPlusPlusDensestSubgraph` with all schedules, `exit` and out-of-range reads as outcomes (`Verif/Algo/Charikar.lean`) | refutation for every graph with two edges |
| C65 | `DegeneracyOrder_intsort` with any sorted permutation per round (`Verif/Algo/Orders.lean`) | invariant: remaining degrees and a counting bound per batch; refutation by a forest |
| C66 | `approximate_kth_smallest` and the threshold rounds, out-of-range reads as outcome | permutation by induction; refutation for one vertex over all runs |
| C67 | the rounds of the Barenboim-Elkin order for any cutoff, negative lengths as outcome | permutation by induction; refutation for all graphs of high minimum degree and for stars |
| C68 | `BFS_ComponentLabel` and `CC` on the concurrent `edgeMap` | one search labels exactly one component (invariant over rounds); vertices without edges keep UINT_E_MAX, which decides when the result is right |
| C69 | hooking with `write_min` and racy compression as concurrent programs, any division of the edges among threads | ranked forests: compression reaches the roots under all interleavings (`compress_par`); every round merges or the labels agree on all edges |
| C70 | `process_batch` with `parents`, `prev_parents`, `flags` in shared memory | soundness by rely-guarantee; negation by following all executions of single-update batches |
| C71 | `LabelProp_F` on the concurrent `edgeMap`, `changed` flags, the next frontier | invariant: an edge with differing labels has an endpoint in the frontier; the sum of the labels decreases |
| C72 | `link` and the compression of k-out sampling as concurrent programs | labels never exceed the vertex and stay in its component, so the labels form a ranked forest, compressed by `compress_par` |
| C73 | `BFS_ComponentLabel` of the sampling with the traversal choice of `edgeMap` | invariant over rounds; the number of unlabelled vertices decreases unless only the source is re-emitted; negation by showing that every round reproduces the frontier |
| C74 | `contract`: pairs of clusters inserted into the table of C20 (fixed size 4096 below 2048 clusters, else five times the number of clusters with fall-back to a table sized by a count), concurrent flag loop, scan, `mapping`, `from_edges` of C22 | invariant over interleavings for the flags, `Hash.insert_keys`, `Csr.fromEdges_spec`; pigeonhole for the full table (negation) and for termination of the other tables |
| C75 | `CC_impl` as an inductive relation over levels, each composed of the models of C46, C29 and C74; undefined behaviour is the result `none` | induction over the levels; every level after the first has no isolated vertices and the first centre claims a neighbour, so levels shrink; existence of runs for graphs with fewer than 4096 edges; negation from C74 and the shifts for beta = 0.2 |
| C76 | `PageRank_edgeMap` with its `edgeMap` client (`EdgeMap/Accum.lean`, `Algo/PageRank.lean`), exact rationals for doubles | rely-guarantee: each round adds every edge's share exactly once, in all traversals and interleavings; the step is an L1 contraction with factor 0.85 (stochastic kernel), hence existence, uniqueness, convergence and the error bound; negation: reaching `max_iters` returns zeros |
| C77 | `PageRank` and `edgeMapReduce_dense`, non-finite values as `none` | refinement to the same step on symmetric graphs; negation on the directed graph 0 -> 1 |
| C78 | `PageRankDelta` with both branches of `sparse_or_dense` | both branches add the frontier's deltas; ranks are monotone after the first round; negation on a path |
| C79 | `SSBetweennessCentrality`: both phases as loops over `edgeMap` with the adding client (Accum.lean), `in_edges` as the reversed graph; NaN as a separate outcome | levels and path counts by induction on rounds; backward values are (1 + dependency) / paths by splitting walks at the first edge; specification by counting walks; negation for unreachable vertices |
| C80 | `SSBetweennessCentrality_BFS`: claiming client, then sums over finished neighbours | the same invariants: finished neighbours of the next level are one level away |
| C81 | `SSBetweennessCentrality_EM`: either branch of `sparse_fa_dense_em` in every round; reading past the array as a separate outcome | the same invariants: values of neighbours outside the frontier are 0; negation for fewer than 100 vertices |
| C82 | `resizable_table`: insert as a program of reads and CAS on slots, iterator, lookups, resizing (Hash/Resizable) | rely-guarantee: filled slots keep their pairs, every pair is found by its probe sequence, one ghost winner per slot; counting argument for room |
| C83 | `StronglyConnectedComponents` with `first_search`, `multi_search`, `Search_F`, both table intersections and the outer loop (Algo/SccSearch, SCC, SccHang); `random_shuffle` is any permutation, the rounding of `step_size * beta` is left out | labels are constant on components and distinct on finished ones; a label in both tables is that of a vertex of the same component; label + bit is the maximum of candidates that are equal within a component; hang by counting pairs |
| C84 | `num_scc` (Algo/SCC) | labels are less than n, so flags count the distinct labels |
| C85 | `BFS_SpanningForest_F`, the loops of `BFS_SpanningForest` and `SpanningForest`, `parents_to_edges` (`Algo/BFSSF.lean`); spec `IsSF` in `Algo/SpanForest.lean` | every layer claims each vertex once (`claim_round`); invariant over searches; acyclicity by counting edges against roots |
| C86 | `BFS_SpanningForest_Det_F`, `BFS_SpanningForest_Det_F_2`, `SpanningForestDet` (`Algo/BFSSF.lean`) | rely-guarantee for the two passes (least parent, then the winner emits); refinement of the same layers; a layer is a function of the state, hence uniqueness |
| C87 | `map_f`, `map_f_2`, compression and loop of the Shiloach-Vishkin forest (`Algo/SVSF.lean`), reusing the model of C69 | the recorded edge joins the two trees that were hooked; invariant `FStart`; counting |
| C88 | `LabelProp_F`, `LabelProp_F_2`, the loop and `SpanningForest` (`Algo/LPSF.lean`), reusing the traversal proof of C71 | ghost round in which each vertex got its label; the recorded edge leads to a vertex labelled earlier; counting |
| C89 | `parent_connect`, `extended_connect`, updates, shortcuts, the round and the loop (`Algo/LiuTarjan.lean`, `Algo/LTShort.lean`) | rely-guarantee for the message writes (a message is the least sent, the flag tells whether any changed) and for the shortcuts (roots keep); flat trees and `messages[r] = r` at roots between rounds; with one shortcut: parents never exceed messages; refutations by executions checked by `rfl` (`Conc/ExecL.lean`) |
| C90 | the same on a list of edges with `my_alter` | as C89; the edges of later rounds join roots |
| C91 | messages with edges, `root_update` with `Edges`, the loop and the filter (`Algo/LTSF.lean`) | reduction to the round of C89; the recorded edge joins the two trees that were merged; counting as in C87; for one shortcut an invariant on trees that are not flat |
| C92 | `RelabelDet`, `cc_check`; accesses outside of the table are `none` | the relabelling is an injective map on the labels after the first vertex; exact characterisation `ccCheck_iff` |
| C93 | the two templates of `SpanningForest/Framework/sampling.h` around the Shiloach-Vishkin model | n edges on n vertices are not a forest (`Forest.forest_lt`); partial from `sv_sf_sampled` |
| C94 | `BFS_ComponentLabel_F` in the EdgeMap framework, the loop and the recording of edges | rely-guarantee invariant on the labels; counting; counterexample run |
| C95 | the two loops of `compute_components` over the trees of memory accesses of C30/C31; a sample is any memory that meets `Comp.Start`; which edges are united follows `Calls` | the links of the sample count as finished calls; rely-guarantee with a rank order in which centres are ordered by number and leaves lie above their centre |
| C96 | as C95 with the reported vertex; `Edges` is the sample's entry or that of a reporting call (`EdgesOf`); `UniteRemLock` of the spanning forest code | every non-root is owned by exactly one call, so the recorded edges span and their number matches |
| C97 | `LDD_edges` with two arrays over all interleavings (`LDDE`), `RelabelIds`, `contract` with values in the hash table of C20, and the recursion with the mapping of edges | forgetting the values gives the contraction of C74; the lookup returns an edge between the two clusters (`lift_spec`); induction over the levels on a certificate (a root per vertex and the number of edges) |
| C98 | `LDD_sample_edges` as in C97 without the entries of centres; `link` reports the vertex at which it records, `Edges` is the old entry or that of a reporting call | a vertex claimed by a thread gets its edge from the same thread (rely-guarantee with an owner); the recorded edges connect every vertex with its parent, with the edges of calls under way |
| C99 | the rounds with exact rational thresholds; `nghCount` in its dense and sparse forms, with the choice as in the code, and a histogram that does not return as a distinct outcome | between rounds `D` counts the neighbours that remain; a set that meets the removed vertices loses at most twice the threshold per removed vertex |
| C100 | `unite` and `find_compress` as programs over the memory, all interleavings; then the loop `finish`, whose iterations drop the value; `num_cc` and `largest_cc` over the labels | after the unions the roots are fixed; rely-guarantee on a decreasing parent array shows that each iteration of `finish` leaves the root in its entry |
| C101 | `LDD_parents` as `LDDE` (C97), the tree edges, and the table of pairs of clusters with an arc as value (C20) | every vertex is joined to its centre by at most as many tree edges as there were rounds (`ldde_depth`); two adjacent clusters have one arc in the table |
| C102 | the rounds over the bucket structure (C14), the in-place packing of the active sets, the competition by `write_min` and the release as calls of `edgeMap` (all interleavings), priorities as any injection; the value of the undefined conversion is a parameter | an element ends with the priority of the least active set that contains it, then with what that set decides (`visit_spec`, `reset_spec`); the sets of the cover are paid for by the elements they won, and a set that is still in the buckets had at most 1.01^(b+1) unmarked elements (`Paid`) |
| C103 | the loop of a query with its counter of work and the recursion, the order of the reordered lists, `sorted_it` as the merge of two lists | the recursion decreases the position in the order (`query_total`); by induction the answer is that of the greedy choice (`query_spec`), which exists and is unique |
| C104 | the hybrid space: arrays with their sizes (an access out of bounds is an outcome of its own), `char` labels with sign extension, `setup` with labels and by intersection, for vertices and arcs, the recursion with the parallel level, `parallel_for_alloc` with any distribution to workers | the recursion counts the increasing sequences of the local graph and restores the labels (`go_spec`); the local graph is the graph on the out-neighbours (`setup_spec`, `setupLE_spec`); increasing sequences are the cliques (`seqs_cliques`) |
| C105 | all of `Biconnectivity`: union-find of the components, `cc_sources`, the breadth-first forest, the sorted arrays of the tree, both bottom-up passes as edgeMaps with atomic counters, the preorder numbers in both branches, the map over the edges with `write_min`/`write_max`, the marks in the top bit, the second union-find | the tree arrays give the children (`outs_eq`); the passes compute sums, minima and maxima over the children in every interleaving (`leaffix_fix`); subtrees are intervals (`pn_interval`); so the test says that all edges of a subtree stay below the parent (`crit_iff`); without these edges the components are the blocks (`BfsTree.all_edges`, spec: `SameBlock`, no vertex separates the edges) |
| C106 | both loops of Boruvka's `MinimumSpanningForest`: the batch taken by `get_top_k`, relabelling, `write_min` into `min_edges`, hooking, pointer jumping, packing of roots and edges with the top bit as a mark, exhausted vertices, the filter of the graph | every chosen edge is the least of its batch across the cut around a component (`CutRule`), so the batch extends the forest to a forest and lighter edges connect the ends of every edge of the batch (`CutRule.forest`, `CutRule.below`, by removing the greatest chosen edge again and again: `prune`); hooking makes no cycle because the edge gets smaller along it (`hooked_ranked`); what stays in the graph is never lighter than what was taken (`take_spec`); spec: `IsMSF` of C44 |
| C107 | `NeighborOrder`, `ComputeCoreOrder`, `GetCores`, `ClusterCores`, both `AttachNoncoresToClusters`, both `Index::Cluster` | the row of a vertex is its neighbours by falling similarity (`Rows.of`), `degree_offsets` finds the vertices of a degree (`degreeOffsets_spec`), so `GetCores` returns exactly the cores (`Ix.cores`); the union-find on the array with `kUnclustered` entries is the sampled union-find of C54 where these entries hang off a vertex that does not exist (`unites_spec`); rely-guarantee for the attachments; the loop over the thresholds keeps the labels of the larger threshold (`St`, `inc_facts`); spec: `IsScan`, `Best` |
| C108 | `intersect_f_with_index_par` and its sequential cases, `AllEdgeNeighborhoodSimilarities`, the exact part of `ApproxJaccardEdgeSimilarities`, the Jaccard and cosine quotients | the intersection calls the function once per common element with its two indices, for every split (`merge_good`); the updates of all intersections sum up to the shared weight at each edge (`parts_sum`, `counter_exact`) in any order; the entries written are a permutation of the arcs (`sims_perm`); spec: `WG.shared`, `WG.C`, card of intersections and unions |
| C109 | the fingerprints and estimates of `ApproxJaccardEdgeSimilarities` | each entry is the least value written to it (`foldl_min`), the slots of the vertices do not overlap (`slot_inj`), quotient and remainder of the permuted name determine the vertex (`estimate_spec`); spec: `hit`, `firstIn` |
| C110 | `DetermineUnclusteredType`, `CollectReduce`, `Modularity` with and without weights | rely-guarantee: the candidate is set once and stays, each finished check has seen its own cluster in it or the flag is set (`check_spec`); the slice of a list sorted by key is its filter (`slice_key`); the double sum over pairs in a block is exchanged with the sum over clusters (`sum_sq`, `value_eq`); spec: `Hub`, `Same`, `QG.newman` |
| C111 | `naive_scan::Cluster`, `ComputeStructuralSimilarities`, `CoreBFSEdgeMapFunctions` | the next frontier of an `edgeMap` whose functions only read is determined by the edges, for every traversal (`edgeMap_pure`); invariant of a search: the set reached is linked to the root and closed up to the frontier (`BInv`); invariant of the loop: the cores with a cluster are those linked to a core below the root (`RInv`); spec: `IsNaive`, related to `IsScan` by `isScan_iff` |
| C112 | `Count5CycleVertex`, the parallel and serial loops around it, `Count5Cycle_experiment`, `Count5Cycle_ESCAPE`, `Count5Cycle_ESCAPE_par`, `relabel_graph`, `_binary_search`, the block scheduling | of the ten tuples that run around a cycle, exactly one satisfies the conditions of each algorithm (`kowalik_unique`, `escape_unique`); the table `U` holds the number of paths of length two, entries subtracted are among those counted, so nothing wraps (`countVertex_spec`, `escVertex_spec`); spec: ten times the result is the number of tuples (`CG.cycles`, `ten_cycles`) |
| C113 | `vdata`, `link`, `find`, `find_twotry_splitting`, `unite`, `initialize`, `compute_components`, `compute_spanning_forest` of `jayanti.h`; copies of a `vdata` are two reads | rely-guarantee over the forest of links and the rank of each vertex (when it was linked); links go up in (rank, number), ranks only grow, `rank + number ≤ n`; the root bit is read before the parent, so that a parent is only followed from a linked vertex; a call that has linked its ends finds one of two vertices not a root; spec: `IsCC`, `IsSF` |
| C114 | `Co_PR_F`, `inner_product`, `CoSimRank_edgeMap`; `edgeMap` with threshold 0 (always `edgeMapDense`, or nothing if the frontier has no out-edges), all interleavings; doubles as rationals | `acc_round` (as for C76) for the values; a trivial rely-guarantee argument that every reached vertex is in the next frontier, hence no mass lies outside it; induction over the iterations; distributions have mass at most 1, so terms are at most `c^k`; spec: `walk`, `cosim`; refuted on the triangle with closed forms |
| C115 | `CoSimRank` with `edgeMapReduce_dense` (flags 0: out-neighbours), values that may be infinite or NaN as `none` | both runs end with the same number of terms (`Ends.unique`); refuted on a directed graph |
| C116 | `_seq_count_sort`, `_count_sort` on arrays as functions, blocks in any order, bucket numbers truncated to the bucket type, the readers of its callers | per block: counts, scan, stable backward placement; blocks write disjoint ranges; spec: `filter` of the input |
| C117 | `get_bucket` (sampling, heavy table), `histogram_medium`, `histogram` (sequential, light and heavy buckets), `hist_table::resize`, `compactIntoSelf`; single-precision table sizes (`f32`)  | disjoint table regions per bucket (`foldlM_disjoint`), `Clean` table as invariant between calls, `tally_split` over the buckets; spec: `tally`; refuted by counting slots (`insAllC_full`) |
| C118 | `seq_histogram_reduce`, `histogram_reduce` with `insertF` | as C117, with results written to `out`; the order within a key comes from C116 |
| C119 | `edgeMapInduced`, `edgeMapCount_sparse`, `edgeMapCount_dense`, `edgeMapCount` and those of the class `EdgeMap`; uninitialised arrays as arguments, an empty optional read as `none` | the induced array is the concatenation of the rows for every order (`induced_spec`); C117; spec: `reached`, which is `IsHist` as used by C33, C98, C99 |
| C120 | `EdgeMap::edgeMapReduce_sparse` | `induced_spec`, C118; spec: `reduced` |
| C121 | `ignore_f`, `vtx_intersect`, `triUpdate(_serial)`, `setup` with a filter, `cliqueUpdate(_serial)`, one row of counts per worker, keys in any order; an access out of bounds as `none` | each destroyed clique is counted only by its active vertex of least rank (`loc_exact`), rows add up over the workers (`rows_spec`); spec: `inside`, the cliques inside a set |
| C122 | `Peel` with the buckets of C13: `applyAll` for both forms of `update_changed`, rounds as a relation over all distributions | invariant `PeelG` (as C37 with `inside` for the degree), `update_movesOf` reduces the entries of `D_filter` to moves of C13; spec: `IsCoreNum` |
| C123 | `ApproxPeel`: first round and loop over rationals, rows of C121 | `sum_inside` (double counting), a densest set has a vertex removed in a round whose density was recorded (`round_bound`); spec: `cnt` |
| C124 | `Verif/Convert/Encode.lean`, `File.lean`: the size pass, the scan, the parallel encoding into one array from any initial content, tables of offsets and degrees, the loader's pointers into the file; traversals are those of C04-C06 | `encBytes`: what the size pass counts is what the encoder writes; placements do not overlap, so any order gives their concatenation; spec: the graph itself and `callsUntil` |
| C125 | `Verif/Convert/Converter.lean`, `ConverterWrong.lean`, `ConverterDir.lean` (directed graphs): batches with one output slab each, `-enc byte`, `-enc degree` | `batches_cover` says for which n the batches reach all vertices; a list of 257..1000 neighbours in two blocks is decoded as one (`misread`) |
| C126 | `Verif/Convert/Binary.lean`: header, offsets, slabs of edges written in any order, loader with and without weights | `entryWrites_eq`, `performWrites_spec`: writes to distinct entries in any order |
| C127 | `Verif/Convert/ToChars.lean`, `EdgeList.lean`: slots of an array of characters filled in any order, `sprintf` with its terminating zero, chunks | `Printer.Good`: what a slot holds after printing, and that nothing outside changes; `seqToString_eq` for every order; spec: decimal text of C25 |
| C128 | `EdgeList.lean`, `Reorder.lean`: `print_edge_list` with its value-initialised array of `m` pairs | `printEdgeList_eq`: the output for all graphs including the superfluous lines |
| C129 | `Reorder.lean`: the loop with `off` captured by reference, `std::sort` of a range | `randomReorder_eq`: the range is always empty; composition with C25 |
| C130 | `EdgeList.lean`: `>>` for `uintE` and `int32_t`, `skip_ifstream_comments` | induction over the entries; spec: `Entry`, `Sep`, `Comment` |
| C131 | `Snap.lean`: on top of the model of C22-C24 | `flip_sorted`: the second sort is strict; `vertexData_csr` for both directions |
| C132 | `Snap.lean`: composition of C130, C24/C131 and C25 |  |
| C133 | `Verif/Encoding/AmIter.lean`: `iter` with its block search at construction and in `next`, `filter_iter`, the encoder taking an iterator; `Verif/Graph/MutateIter.lean`: `filter_graph` reading through them | `Pos`: the iterator's position in a layout of C51 (`Lay`), so that all pack histories are covered; `YieldsH`, `Yields`: what an iterator yields; refinement of `filterGraphByte` (C28) |
| C134 | `Verif/Encoding/AmIntersect.lean`: `simple_iter`, the merge loop | `SPos`: position in the exact bytes of a fresh list (`encBytes`); spec: `common` of C49 |
| C135 | `Verif/Gen/Rmat.lean`: `rMat`, `rMatRec`, `generate_updates` with 32-bit index arithmetic; the hash is any function, a probability is the set of hash values below it | induction over the levels: bit `k` of the endpoints is decided at level `k` |
| C136 | `Verif/Gen/Barabasi.lean`: the three loops on the array of edges, any draws, any order of the parallel loop | raw slots hold positions below `2*i*e`, distinct per vertex; the last loop replaces them from left to right, so that positions refer to finished slots; connectivity by strong induction on the slot |
| C137 | `Verif/Seq/Kth.lean`: `kth_smallest` with any pivots | induction on the length; counts of smaller and larger elements split by the pivot |
| C138 | `Verif/Cli/CommandLine.lean`: the loops over `argv`, `atoi`/`atol` of the C library, the choice of reader in the `main` macros; undefined and aborting calls are outcomes | `render` prints a list of options; the loops on it are compared with lookups in the list (round trip) |
| C139 | `Verif/Algo/LTBatch.lean`: the five loops of a round, alteration, the loop over the queries; parents, messages and flags in one memory, one thread per insertion, every interleaving | soundness by a transitive relation between indices and values kept by every access; for the first batch the thread that set a flag owns the parent and the message (rely-guarantee), so all ends are below roots after the shortcuts; refutations by executions |
| C140 | `Verif/Clique/Split.lean` (blocks by work, lower bounds in the scan), `Inter.lean` (recursion over `intersect`, a data race as an outcome), `Neigh.lean` (rows permuted in place, degrees per level, `num_edges` modulo 2^32; the choice of the space type) | the blocks are consecutive and cover the vertices; both recursions by induction over the levels with the labels restored; for `Neigh` rows are only permuted within the first `degs` entries |
| C141 | `Verif/Clique/Sparsify.lean`: the colour predicate, the filtered graph, the product with `denom^(k-1)` (without rounding) | cliques of the filtered graph are the one-coloured cliques; the mean by double counting over all colourings |
| C142 | `Verif/EdgeMap/Compressed.lean`: `edgeMapChunked` over reported block counts and degrees and a `decode_block` that may be undefined; instances for both formats; packing histories over all vertices of one memory | the groups partition the work blocks (C18) as soon as the sum of the reported degrees is positive; every block decodes to its live entries (C51), of which there are at most 1000 because packing only shrinks blocks; lists in disjoint regions do not disturb each other |
| C143 | `Verif/Algo/Verifiers.lean`: the five checkers as total functions with outcomes stopped, says, undef; `asserts` is the build mode; components of edge lists by any correct labelling, `cc_check` from C92, the command line from C138 | each checker's sums are compared with the first-order definition of the result; maximality is stated over all larger sets and reduced to neighbourhoods; the forest check by counting components of forests (C22's matroid lemmas); concrete accepted wrong results for the negations |
| C144 | `Verif/Conc/UFBatch.lean`: the loops of `process_batch` as parallel executions of the union-find programs of C30/C95, histories of batches, queries with the answer their two finds give | a history is one of the interleavings of all its operations, so the rely-guarantee invariant of C95 gives the connectivity; query threads own no link; without insertions beside them finds return the fixed roots (C58) |
| C145 | `Verif/Graph/RelabelGraph.lean`: both versions of `relabel_graph` on arrays with uninitialised contents and all orders of the loops; order types 2 and 3 | for a permutation the loops are those of `filter_graph` (C28) on the renamed lists with renamed schedules; the in-place filter, renaming and sort write the sorted list; sorted permutations are unique, which gives the lists of C104 |
| C146 | `Verif/Graph/Ownership.lean`: objects with pointers and a deletion function (captured arrays, or captured `this`), a heap of sized arrays; statements default, make, copy, move, assign, destroy, pack; the specification is a store of values | invariant: pointers are typed and disjoint, every array has an owner, the deletion function frees exactly the arrays of its object with their sizes; each statement refines its meaning on values |
| C147 | `Verif/Graph/EdgeLists.lean`: the writes of `edges`/`to_edge_array` with offsets modulo the size of their type, in any order; `asymmetric_graph::from_edges` on the model of C22; reductions with any parentheses | every write agrees with the concatenation of the lists and every position is written; strictly sorted lists with the same members are equal; the monoid laws remove the parentheses |
| C148 | `Verif/Hash/TableOps.lean`: the sequential loops with a bound on the iterations, histories of calls, a small-step model of `insert_check` with its flag on top of that of C20, `resize` with the size in `int` | an abstraction relation between table and finite map that every call preserves (keys reachable by their probes, marked slots count as occupied); `insert_check` simulates `insert`, threads that did not insert imply the flag; a count of the accesses left bounds every run |
| C149 | `Verif/Algo/WidestBF.lean`: the client with both update functions, the traversals allowed by the flags, the loop with its `round == n` branch | with `dense_forward` every call is one of the client with `updateAtomic` only; the rely-guarantee invariant of Bellman-Ford (C33) over negated widths; a walk is shortened within the subgraph of the edges of at least its bottleneck, so nothing improves in round n |
| C150 | `Verif/Scan/SimHash.lean`: the allocation of random numbers and fingerprints in 32 and 64 bits, the dot products over an arbitrary arithmetic, the bit arrays, the writes in any order, the popcounts | with room for all numbers each read is at `nIdx v * S + i` (`rd_some`), bit `b` of array `a` is the side of hyperplane `64 a + b` (`bits_some`), slots do not overlap (`slot_inj'`), the popcounts of the arrays add up to the number of separating hyperplanes (`count_blocks`); spec: `side`, the sign of the sum over the closed neighbourhood (`side_exact`) |
| C151 | `Verif/Graph/Sample.lean`: `sample_edges` with both scans and the temporary array, `edgeMapFilter` with its flags, `packEdges` of C28 | with values 0 and 1 the sums are lengths of the filtered lists, so the parts tile the output (`scatter_spec`); spec: filters of the neighbour lists |
| C152 | `Verif/Seq/Frequent.lean`: the loop with its 32-bit counter, the hash table as entries in any order, `max_element`; `annotate_updates` with the size from a rounded quotient | invariant: the table holds the number of occurrences among the draws so far; spec: `List.count` on the list of draws, filters of the batch |
| C153 | `Verif/Graph/PtrCopy.lean`: memory as a function of addresses, vertices with pointers, the loops of both copy constructors in any order; `from_edges` on the model of C22 | a lemma on lists copied to ranges that are disjoint from each other and from the sources; the offsets of a scan give such ranges |
| C154 | `Verif/Atomics/Counters.lean`: reading and writing an entry as two accesses, threads with lists of calls; the maximum on the model of C10 | invariant: each entry is the sum of the finished calls of its worker, and what a worker has read is still there; spec: sums over lists of arguments |
| C155 | `Verif/Scan/Compact.lean`: both loops in any order, accesses out of bounds as `none`, the scan in 32 bits | the new number of a cluster is the number of smaller clusters in use (`compact_eq`) |
| C156 | `Verif/Encoding/AmFilter.lean`: the decoding rounds in any order, accesses outside the temporary space as `none`, 32-bit subtraction of block starts; the library filter modelled in `Verif/Seq/Filter.lean` | each round holds exactly the edges of its blocks; on every memory described by `Lay`, so also after packs; spec: positions and `List.filter` |
| C157 | `Verif/Encoding/AmMutate.lean`: counting, scan, `filter` and `pack` of all vertices in any order on one memory | frame argument: each vertex only writes its own bytes and its own output range (`fold_spec`, `scatter_spec`); spec: `List.filter` and `List.flatMap` on the stored lists |
| C158 | `Verif/Algo/TriangleOrders.lean`: the choice of the ranks by the string `ordering`, on the models of C45, C62, C65 and C67 | each array used as ranks is injective on the vertices; then C45. A star as the counterexample for the orientation |
| C159 | `Verif/Algo/Stergiou.lean`: rounds with the conditional calls of `write_min` and the shortcuts in any order | all values written are 0, so the order does not matter; the result in closed form; spec: `Relation.ReflTransGen` of the edges |
| C160 | `Verif/Graph/ReadODirect.lean`: the loop of `read_o_direct` with the requests to `read` and the bytes written | the buffer is a prefix of the file, and a request that is not the last ends at the end of the file only if its size is a multiple of a page; spec: `file[i]?` |
| C161 | `Verif/Bicc/Stats.lean`: `bicc_label` with its assertion, the bits set by `map_bc_label` in any order, and their sum | the labels are those of C105; the set of bits is the set of labels; spec: lists with exactly one edge of every block |

Every disagreement between the English claim and the shipped code found while
modelling is recorded in the section below and proved as a theorem about the model.

## Disagreements found

Each entry names the theorem that exhibits the disagreement on the unchanged code.

* C01 – an `int` weight equal to `INT_MIN` makes `compressWeight` negate it (signed
  overflow): `C01_int_min_undefined`.  A repeated neighbour has difference 0, which the
  encoder writes with no byte at all, so lists with repetitions do not round-trip:
  `C01_duplicates_not_encodable`.
* C03 – `get_ith_neighbor(i)` returns entry `i-1` for `i>0`: `C03_byte_ith_neighbor_wrong`.
* C49 – the list iterator eats one edge beyond the last one, i.e. reads memory after the
  encoding: `C49_byte_intersect_reads_past_end`.
* C05 – a neighbour exactly 2^31 away from its source that starts a bytepd block makes the encoder evaluate `std::abs(INT_MIN)`: `C05_bytepd_far_neighbor_undefined`.  A callback that answers `false` only ends its block (except in the first block): `C05_bytepd_stop_is_per_block`.
* C06 – `bytepd::get_block_degree` reports 0 for the last block when the degree is a multiple of 1000: `C06_bytepd_block_degree_wrong`.
* C07 – `bytepd_amortized` does not store `float` weights: `C07_amortized_float_weights_lost`.
* C03 – also in `bytepd_amortized`: `C03_amortized_ith_neighbor_wrong`.
* C50 – `bytepd::pack` ignores its predicate for degrees above 1000 (`C50_bytepd_pack_ignores_predicate`), and reads the following vertex's bytes for degree 0 (`C50_bytepd_pack_empty_wrong`).
* C51 – `bytepd_amortized::pack` overruns its stack array when the list has exactly 100 blocks: `C51_amortized_pack_stack_overflow`.
* C13/C14 – the client must not insert before the last returned bucket; initially it must not insert before the first initial bucket. In particular an increasing structure created with nothing mapped drops every later insertion: `insertion_into_empty_dropped`.  `update_buckets` dereferences the optional before testing `has_value` (`bucket.h:223-224`), modelled as reading an irrelevant value.
* C52 – with `get_bucket(next)` in decreasing order an identifier in the overflow bucket that moves to another overflow bucket is stored and returned twice: `duplicate_in_decreasing_overflow`.  With `get_bucket(prev,next)` an identifier that moves away and back is returned twice: `duplicate_after_moving_back`.
* C17: `add_to_vsubset` (vertex_subset.h:479-500) updates only the active representation; after a conversion the other, still cached one lacks the new vertices and a later conversion brings it back (`add_stale_sparse`, `add_stale_dense`).
* C18: `emhelper` (edge_map_blocked.h:229-312) reserves room for one work block of 1024 entries, but an output block has 16384 bytes; with entries larger than 16 bytes a vertex of degree 1024 overflows it (`large_entries_overflow`).
* C54: `edgeMapData` (edge_map_data.h:163-174) caches the degree sum in the subset; the cache ignores the direction flag and is not reset by `add_to_vsubset`, so later calls can return the empty set (`stale_direction`, `stale_after_add`).
* sequential_ht.h:105-119 (C21): the pair overload of insertAdd stores 1 instead of the value when it claims a slot, so the first value of each key is lost (`insertAddPairs_wrong`).
* sparse_additive_map.h:65-76 (C55): a map created for k values may have exactly k slots; when full, contains/find of an absent key never ends (`additive_map_full`).
* graph.h:142,356,670,884 (C23): the default vertex count is one plus the *sum* of the maxima of the edges (`parlay::reduce` adds), not one plus the maximum (`defaultN_wrong`).
* graph_io.h:425-598 (C24): an edge list with only self loops yields n = 1 with a null vertex array (`edgeList_only_loops`).
* graph_io.h:691-708 (C56): sample_sort is not stable, so for repeated pairs with different weights the two directions may keep different weights (`weights_asymmetric`).
* `graph_io.h:672` parses integer weights with `std::stof`: weights that need more than 24 bits are rounded and 2147483647 is undefined (`Text.weights_wrong`, `Text.weights_undefined`, C26).
* `graph_io.h:165` leaves `tOffsets[n]` uninitialised in the weighted reader (the unweighted one in `graph_io.cc:149` initialises it): in-degrees may be wrong (`Transpose.transpose_weighted_wrong`, C27).
* `graph_io.cc:163`, `graph_io.h:182` read `temp[0]` for a directed graph without edges (`Transpose.transpose_no_edges`, C27).
* `graph_io.cc:41-57`, `graph_io.h:629-643`: with `bytes != nullptr` the contents are not given to the tokeniser; the first token is read from an empty sequence (`Text.parse_bytes_undefined`, C57).
* `graph_mutation.h:155` returns the number of encoded bytes as the number of edges of a filtered byte-compressed graph (`MutateByte.filterGraphByte_wrong_m`, C28).
* `UniteRemCAS` (union_find_rules.h, Connectivity): a thread that passed the loop test can CAS `parents[x]` from x to x after another thread merged the trees; it then reports a hook although nothing was merged (`remCAS_phantom`).
* `UniteRemCAS` (SpanningForest/UnionFind/union_find_rules.h 188-193) swaps rx and ry but not p_ry: the CAS stores rx in its own entry, an edge is recorded, and nothing is merged. Sequential example in `remCASsf_not_spanning`: the forest does not span.
* **C35** delta-stepping loses a vertex when two relaxations of it race: the update that wins the visited flag may return a distance already lowered by the other one; `get_bucket(prev, next)` then sees equal buckets and does not insert the vertex (`Delta.delta_lost`).
* C36: `apply_f` passes `get_bkt(old width = 0) = max_weight + 1` as previous bucket of an unreached vertex instead of the null bucket. If `max_weight + 1` lies in the overflow range, so may the new bucket, and `get_bucket(prev, next)` concludes the vertex is already there; it is never inserted (`widest_lost`).
* C38: `kcore_fetch_add::updateAtomic` (`KCore.h:87-93`) emits a vertex when the *old* counter equals 1, so a vertex that loses exactly one edge in a sparse round is not updated, and its value stays too high (`kcoreFA_wrong`: the path 0-1-2-3 gets value 2 for vertex 1). The sequential `update` tests the new value and is correct.
* C41: when the `deg` neighbours use all of 0..deg-1, `coloring::color` (`GraphColoring.h:58`) returns `deg + 1`, not `deg`; on a single edge the colours are 0 and 2 (`coloring_range_false`).
* `MaximalMatching.h:223` passes `maxTries = G.n` to `eff_for` with granularity 50. With fewer than 50 edges the round size is `edges/50 + 1 = 1`, so a round handles one edge, and the loop aborts the process after `n + 2` rounds. Every graph with `n + 1 < m/2 < 50` (the complete graph on 4 vertices is one) makes `MaximalMatching` abort (`Match.matching_call_aborts`). With at most `n + 1` edges it completes (`Match.matching_call_partial`).
* `MaximalMatching.h:140` and `:146` test `idx == G.num_vertices() - 1` where `cur_id` is meant. If a vertex without live edges has offset `n - 1` (five vertices, edges 0-1, 0-2, 0-3, 0-4, 2-3), the loop selects this vertex for index `n - 1`, extracts nothing and repeats forever (`GetEdges.get_edges_hangs`).
* `Kruskal/MinimumSpanningForest.h:49` prints the weight of the first edge before looking at the number of edges: on a graph without edges it reads an element that does not exist (C44, `kruskal_no_edges`). The overload for unweighted graphs (`:88-95`) returns the empty sequence for every graph.
* **CharikarAppxDensestSubgraph is off by one** (C47): after the exclusive scan, entry i counts the edges of the suffix of size n-i-1 but is divided by n-i, and the whole graph is never considered. A single edge gives 0 instead of 1/2 (or 1), a triangle 2/3.
* **DegeneracyOrderWithLoad returns n zeros followed by the order** (C63): the sequence is created with length n and then appended to.
* **GreedyPlusPlusDensestSubgraph never returns on graphs with two edges** (C64): it reads the n zeros as the order, so its edge count is at most 2 and it calls exit(0); below ten vertices it already reads D[0..9] out of range.
* **DegeneracyOrder_intsort is not (2+epsilon)-approximate** (C65): the batch size `ns` is computed from n and not from the vertices left, so late batches take high-degree vertices together.
* **goodrichpszona_degen::DegeneracyOrder reads past the samples** (C66) when at most `ns` vertices are left: the index is `ns * samples / left`.
* **barenboimelkin_degen::DegeneracyOrder sorts the wrong way** (C67): the key `D < cutoff` puts low-degree vertices last, and when no vertex is below the cutoff in a later round `end` becomes 0 and `end - start` wraps around.
* **bfs_cc::CC gives all vertices without edges the same label** (C68): they keep UINT_E_MAX, so two of them look connected.
* **Incremental Shiloach-Vishkin loses connectivity** (C70): `process_batch` refreshes `prev_parents` only for the endpoints in the batch, so a root hooked in an earlier batch is still taken for a root (or its old parent for current).
* **BFS sampling hangs on a source with an edge to itself** (C73): 'unreached' is encoded as `Parents[d] == d`, which always holds for the source; in sparse rounds its self-loop emits it again each time. Without self-loops the source is only re-emitted once.
* C74: `fetch_intercluster_small` (`contract.h:42-85`) inserts with `insert`, which loops for ever in a full table, into a table of 4096 slots. Fewer than 2048 clusters can have more than two million adjacent pairs: contracting nothing in the complete bipartite graph on 65 + 65 vertices hangs (`contract_refuted`).
* C75: consequently `workefficient_cc::CC` with its default parameters never returns on the symmetric graph of 130 + N vertices whose first N are isolated and the others form the complete bipartite graph on 65 + 65 vertices, where N is the number of centres added in the first 25 rounds (N = 655): round 25 makes all 130 vertices centres at once, so all 4225 pairs are inserted (`cc_refuted`).
* C76: `PageRank_edgeMap` (and `PageRank`) zero `p_curr`, swap and then return `p_next`: when `max_iters` is reached without convergence the zero vector is returned. In exact arithmetic the default arguments always converge.
* C77: `PageRank` calls `edgeMapReduce_dense` without the flag `in_edges`, so on directed graphs ranks flow against the edges, and the out-degree 0 of an out-neighbour makes values infinite; with the graph 0 -> 1 and the default arguments the zero vector is returned.
* C78: `PR_Vertex_F_FirstRound` compares `new_delta > epsilon2 * p[i]` without `fabs`, so vertices whose rank falls in the first round never propagate the change; on the path 0 - 1 - 2 the ranks add up to more than 1.24.
* C79, C80, C81: `NumPaths[i] = 1 / NumPaths[i]` is infinite for vertices that cannot be reached from `start`, and `(Dependencies[i] - NumPaths[i]) / NumPaths[i]` is then NaN instead of 0.
* C81: `SSBetweennessCentrality_EM` prints `NumPaths[0]` to `NumPaths[99]` whatever `n` is; the array has `n` elements.
* C83: `multi_search` (`StronglyConnectedComponents.h:119-147`) resizes its table for `effective_degree * num_appearances` summed over the frontier before the round, but `Search_F::updateAtomic` iterates over labels that arrive while the round runs. Along a path whose vertices are all centers, processed in order, all labels travel to the end in one round. With 51 centers the table has 1024 slots for 1326 pairs, and `insert` never returns (`scc_hangs`: 170 vertices, default beta).
* C83: for a graph without vertices `labels[start]` reads outside an empty array; with `beta <= 0` the step size becomes 0 and the loop never ends. Both are excluded from the statement by its hypotheses.
* **Liu-Tarjan with a single shortcut per round is wrong** (C89, C90): the loop ends when no message decreases, although trees need not be flat then. On the path 0 - 1 - ... - 5 with `parent_connect`, if the vertices are shortcut in descending order, it ends after two rounds with different parents. On edge lists all combinations fail (alter then sends messages only from the parents of the endpoints).
* **Liu-Tarjan with simple_update from a sample whose labels exceed vertices is wrong** (C89): `messages[x] = x` initially, so `simple_update` makes a vertex labelled with a larger one its own parent again without a message having been written. BFS sampling produces such labels.
* **Liu-Tarjan spanning forest with a single shortcut per round does not span** (C91): witness of 8 vertices.
* `RelabelDet` (mains/check.h 40-51) starts `cur_comp` at 0, which is also the mark for unset: the class of vertex 0 is forgotten, and `cc_check` accepts every label for it (`check_ignores`).
* `SpanningForest/Framework/sampling.h` 42 and 62 return `Edges` before the filter that removes empty entries; the result has n entries and is never a forest (`framework_refuted`).
* `BFS_ComponentLabel` of the spanning forest framework (bfs_sampling.h 51-56) records (i, src) instead of a tree edge of the search (`bfs_edges_refuted`).
* `UniteEarly` (Connectivity/UnionFind/union_find_rules.h 211-237 and the copy for spanning forests) assumes that parents are smaller than their children; after LDD or BFS sampling a centre may be larger than its leaf, and two calls one after the other leave the cycle parents[3] = 5, parents[5] = 3 (`early_refuted`).
* `SpanningForest_Impl` (SpanningForest/SDB14/SpanningForest.h 166-170) returns at the last level a sequence with `edges.size()` default entries followed by the edges: the result contains (0, 0) entries whenever there is an edge (`sf_refuted`).
* `kout_sampling.h` 45 passes a lambda as the value with which to fill `Parents`; this cannot compile.
* `edgeMapCount` (edge_map_reduce.h 192-196) sums the degrees of the vertices 0 .. |vs| - 1 rather than of the vertices of `vs`; only the choice between two equivalent procedures depends on it.
* `WorkEfficientDensestSubgraph` (BKV12) returns arcs / vertices, i.e. twice the density that Charikar's version of the same library approximates.
* `SetCover` (ApproximateSetCover.h 140-141): for `cur_bkt = 0` the exponent `cur_bkt - 1` is a `size_t` and wraps around; `pow` gives infinity and its conversion to `size_t` is undefined. With a saturating conversion (AArch64) the call does not return on a single edge (`setcover_endless`).
* `SetCover` step 4 (165-176): a set that joins the cover marks only the elements that it won, not its neighbouring elements as the comment says. Elements of it that were won by a set that did not join stay uncovered, and later sets are added for them. The H-factor guarantee gets the additional term `0.0198 |S|` (`setcover_size`).
* Yoshida `mis_query`, `mm_query` (MaximalIndependentSet.h 40, MaximalMatching.h 44-45): the lists are cast to `uintE*`, which for a weighted graph reads weights as neighbours. The model has no weights.
* Yoshida `MaximalIndependentSet` (113-134): a vertex with a self-loop is chosen if no earlier neighbour is, and the check then exits (`mis_selfloop`).
* Yoshida `MaximalIndependentSet`, `MaximalMatching`: the line "# Num answered" prints the fraction, and neither function returns the set or matching, only the totals.
* `parallel_for_alloc` (gbbs/bridge.h 81-93) keeps its space in a `static thread_local` pointer and `HybridSpace_lw::alloc` keeps arrays that exist: a later call with larger out-degrees writes out of bounds (`clique_reuse`); so does `recursive_level >= 2` within one call (`clique_level`).
* `HybridSpace_lw::labels` is `char*`: level 128 reads back as 2^64 - 128, so counts are 0 for k >= 130 (`clique_zero`).
* `setup_intersect_edge` (intersect.h 401-403): `for (size_t p = 0; p < nn; j++)` never ends (`clique_endless`).
* `Clique_enum` with `filter = false` passes the names of the relabelled graph (ranks) to `base_f` (`enum_names`).
* `Clique`: `order_type` 2 gives the vertices sorted by degree where ranks are expected; still a permutation, so the counts are right. A `space_type` other than 2, 3, 5, 6 returns 0.
* `Biconnectivity` marks parents in bit 31: with a vertex from 2^31 on, different components get one label (`big_wrong`).
* `MinimumSpanningForest` (Boruvka) puts a self-loop that is the lightest edge of its vertex into the forest (`loop_wrong`).
* `MinimumSpanningForest` (Boruvka) starts `min_edges` with the largest `int32_t` for every weight type: heavier edges are never chosen (`heavy_wrong`).
* `AttachNoncoresToClustersDeterministic` attaches a vertex only if the similarity is above 0, though the threshold may be 0: with `ApproxCosineSimilarity`, which returns 0 for obtuse angles, border vertices stay without a cluster that the nondeterministic variant attaches (`det_zero`).
* `AllEdges` of the SCAN measures sizes its result by the number of arcs and writes two entries per edge of the oriented graph, in which a self-loop has no edge: with a self-loop an entry of the result is never written and is then sorted into the index (`loop_wrong`).
* The weighted `CosineSimilarity` adds the weights of the shared neighbours in 32-bit unsigned counters for integer weights: sums wrap (`heavy_wraps`, `neg_wraps`).
* `ApproxJaccardSimilarity` computes the length of its fingerprint array in 32 bits: with many samples it is too short and is written out of bounds (`size_wraps`).
* `Modularity` treats an unclustered vertex as a cluster of its own, but does not count a self-loop at it as an edge inside this cluster (`loop_modularity`).
* **C112**: `Count5Cycle` and `Count5Cycle_ESCAPE_par` divide by zero on a graph without edges (`FiveCycle.h:413`, `:966`: `work_per_block` is 0). `parallel_for_alloc` keeps the arrays of a worker in a `static thread_local` variable and `U_FastReset::alloc` does not enlarge them, so a second call with a larger graph writes outside of the arrays. `relabel_graph` stores the number of edges in a `uintE` and allocates that many. `Count5Cycle_experiment` has 576 counters, indexed by `worker_id()`, and writes outside of them with more workers (`five_experiment_workers`).
* **C113**: `process_batch` of `jayanti.h` (`:221-243`) computes the finds of queries but discards them, and leaves `parents` as it was (the loop that would store the labels is commented out): the result of queries cannot be observed through the interface.
* **C114**: the loop of `CoSimRank_edgeMap` stops when both distributions move by less than `eps` (`CoSimRank.h:89`). At that point the terms of the series are about `c^k <π, π>`, not 0: on the triangle with the default arguments the printed similarity is too small by more than 0.03 (`cosimEM_refuted`). The test that would bound the error is on `c^k`. After `max_iters` iterations `p_next` is the zeroed array, so `max_pr = 0, 0` is printed (`cosimEM_max_refuted`).
* **C115**: `CoSimRank` passes flags 0 to `edgeMapReduce_dense`, which then reads out-neighbours; the walk goes along the edges backwards, with the out-degrees of the wrong end. The runner accepts directed graphs (`generate_main(..., false)`). On the graph 0 → 2, 1 → 2, 2 → 0 it prints 0 for the pair 0, 1, whose similarity is at least `c` (`cosim2_refuted`).
* **C117, C118**: `histogram` and `histogram_reduce` with one worker build a `sequentialHT` whose number of slots is computed from `n * 1.0f + 1` in single precision (sequential_ht.h, `log2_up` of it). For `n = 2^24 + 1` this is 2^24 slots, and with that many distinct keys the last insertion probes forever (`histogram_refuted`, `histReduce_refuted`). In the other cases sizes are converted to 32 bits (`(intT)(size + 1)`, `1 <<`), so a bucket with 2^30 elements overflows. Inserting the reserved key by `insertAdd` leaves the value 1 in an empty slot; this is harmless for further counting, but a later `insertF` on the same table would start from it.
* **C119**: the free `edgeMapCount_dense` leaves `out[i]` uninitialised where `cond_f` is false (edge_map_reduce.h 167-186; `countDense_cond_refuted`) and dereferences the optional without a check (180; `countDense_apply_refuted`). All dense forms count edges from the vertex to the frontier, the sparse ones from the frontier to the vertex (`countDense_directed_refuted`). For an empty frontier `vertexSubsetData<O>(vs.numNonzeros())` is a subset of a universe with 0 vertices (`edgeMapCount_empty_refuted`). `EdgeMap::edgeMapReduce` calls `exit(0)` (399), and `srcCount` (241) passes a braced list where a tuple is meant.
* **C120**: `edgeMapReduce_sparse` ignores `id` and starts from the value in an empty slot (`reduceSparse_refuted`); `edgeMapReduce_dense` uses `id` and ignores the frontier.
* **C121, C122**: `triUpdate_serial` appends a vertex to `update_idxs` whenever its count is 0 at a call of `update_d` (peel.h 83-90), and `vtx_intersect` calls it also with a count of 0 (53). A vertex can therefore be appended several times, and neighbours without destroyed triangles are appended as well. `update_idxs` has `max_deg` places (380); `peel_refuted` gives a graph with 13 vertices for which the fifth of four places is written. With `k >= 3` the calls have positive counts, and the bound holds.
* **C123**: `edges_remaining` is the number of cliques in the first round (peel.h 532), and the sum of the counts of the vertices, `k + 1` times the number of cliques, later (579). The value is then up to `k + 1` times too large: 3 for four pairwise adjacent vertices among ten isolated ones, where no set has more triangles than vertices (`approx_refuted`). The message prints `(2(1+\\eps))` for every `k`, in which `\\e` is an escape character.
* **C124**: `compressor` is built by `generate_main`, which reads graphs without weights; with `-w` as in the README the weights are dropped while loading, and the compressed file loaded with `-w` has weight 1 on the edge whose weight was 5 (`C124_weights_lost`; the bytes of the next list are taken as weights).
* **C125**: the converter's default block size is 256 and the loader's is the constant 1000 (`C125_blocksize`, `C125_directed_blocksize`); the loop over batches uses the size of a batch as the number of batches (converter.h 748-764), so that with few vertices the last ones are not written (`C125_truncated`, `C125_small`); the default encoding `byte` is a format that no loader reads (`C125_default_encoding`); `-enc degree` never fills the array of neighbours and writes degree 0 for every vertex, and goes past a buffer above 8192 neighbours (`C125_degree`, `C125_degree_ub`). The `bytepd` variants have the same loop and no loader (not modelled).
* **C126**: the README makes binary files with `compressor`; `-b` takes its table of byte offsets as one of edge offsets, so every vertex with neighbours has too many (`C126_readme`).
* **C127**: `xToStringLen(double)` is 18 and the width of a triple does not count its second blank (to_char_arr.h 37-41). A negative weight takes 18 characters: the newline replaces the last digit of the exponent, and the terminating zero is written to the first place of the next slot (or past the array), which erases the next line's first digit if that was printed before (`C127_double_refuted`).
* **C128**: with `-direct_sym` the array still has `m` elements (to_edge_list.cc 20, 79), so a line `0 0` is written for every arc to a smaller vertex (`C128_direct`); the comment promises `u v 1` for `-matrixmarket_format`, but the 1 is not written; for `m = 0`, `sequence_to_string` iterates to `n - 1 = 2^64 - 1` (bridge.h 713).
* **C129**: `off` is advanced to the end of the list by `map_f` (random_reorder.cc 28), then `std::sort` is called from `off` to `next_off`, an empty range. Lists are written in the order of the old numbers (`C129_refuted`).
* **C131**: as in C24 a list of only self loops leaves one vertex with null vertex data.
* **C133**: `filter_iter::next` (bridge.h 399-407) returns the last entry of the list when no further one is accepted (`C133_filter_iter_past_end_wrong`); callers must count.
* **C134**: `simple_iter` (byte_pd_amortized.h 284-285) finds the first block from the current degree. After a pack that removes a multiple-of-1000 boundary without repacking, the list still has its old number of blocks and decoding starts inside the header: the vertex itself is reported as a common neighbour (`C134_amortized_intersect_packed_wrong`).
* **C135**: `RMAT.cc` checks that `n` is a power of two only after generating; `rmat::generate_updates` does not check, and its endpoints may be `n` or more (`C135_vertex_out_of_range`). The index is doubled in 32 bits, so edges repeat with period 2^31 (`C135_period`). `RMAT.cc` prints the first 100 edges even if there are fewer.
* **C136**: the `edges_per_node` draws of a vertex differ as positions, not as vertices: parallel edges and self loops occur (`C136_multi_edge`, `C136_self_loop`); the initial path uses vertex `e`, which is out of range for `e >= n`.
* **C137**: `kth_smallest` with `k >= n` ends in a remainder by zero.
* **C138**: a value spelled like a flag sets the flag; flags after the file are taken for the file; a missing value is taken from the next argument; non-numbers count as 0 and negative numbers wrap; `getOptionDoubleValue` tests `sscanf` for `EOF` only and returns an uninitialised number (`C138_double_uninitialised`); `generate_symmetric_main` only prints a message without `-s`; `-b` is ignored with `-c`.
* **C139**: `process_batch` of Liu-Tarjan loses connections for all 24 combinations of options (`C139_streams_fail`): the loop stops when no message decreases although parents are not roots, `simple_update` moves a vertex away from its tree, and flags of old parents stay set (`C139_flag_stays`). The last loop reads `updates[i]` instead of `queries[i]`. Nothing in the repository calls it.
* **C140**: `induced_split::CountCliques` computes `total_work / work_per_block` with `work_per_block = 0` when no out-neighbour of a vertex has out-neighbours (`C140_split_divides_by_zero`), for instance for every graph of maximum degree below `k - 1`.
* **C140**: `induced_intersection` passes to `filter` a function that increments a counter of the caller; from out-degree 10000 on `filter` calls it in parallel (`C140_intersection_races`).
* **C140**: `-space 3` never calls `base_f`, so `--peel` starts with all counts 0 (`C140_neighborhood_no_counts`); any other number returns 0 (`C140_other_spaces`).
* **C141**: `--sparse` without `--colors` keeps the whole graph but multiplies the count by `pow(0, k - 1)` (`C141_default_colours`); a multiple of 2^32 colours divides by zero (`C141_cut_colours`).
* **C142**: for `bytepd`, `edgeMapChunked` adds up the degrees reported by `get_block_degree`, which is 0 for the only block of a vertex of degree 1000 (C06). If all vertices of the frontier have degree 0 or 1000, the sum is 0, no group runs and the edges of the frontier are lost (`C142_bytepd_loses_edges`); a search from a source of degree 1000 in a graph of at least 20020 edges ends at once (`C142_bytepd_reached`).
* **C143**: `GraphColoring.cc:64` looks for the option `-verify)`, so `-verify` never verifies a coloring (`C143_coloring_not_run`). `verify_mis` and `verify_matching` use `assert`, which the shipped builds compile out: `verify_mis` always ends with "Ok" (`C143_verify_mis_release`), `verify_matching` accepts any set of edges that meets all edges (`C143_matching_release`), and never looks whether the pairs are edges (`C143_matching_non_edges`). `check_spanning_forest` accepts cycles and pairs that are not edges, since it compares only the number of edges and the components of the vertices other than 0 (`C143_forest_accepts_cycle`, `C143_forest_accepts_non_edges`). With a vertex whose only neighbour is itself, every independent set is reported invalid (`C143_mis_loop`).
* **C144**: in batches that are not reordered, a query for two vertices connected by an earlier batch can find two different roots, since its two finds are not one atomic step (`C144_mixed_wrong_no`; the code drops the answer). `find_compress_uf` returns `parents` without a last round of finds, so its entries are not labels (`C144_find_compress_uf_not_labels`).
* **C145**: `get_ordering` with order type 2 returns the vertices sorted by core number where ranks are expected (the inverse permutation), so `Clique` does not direct the edges by core numbers (`C145_core_refuted`); the counts are right for every permutation (C104).
* **C146**: the deletion function of a copied graph captures `this` (`graph.h:239-245`). (1) An application that packs a copy (`run_app` with `mutates`, e.g. Boruvka) changes `m`, with which the edges are then freed: a wrong size (`C146_pack_refuted`). (2) If a copy is moved, its arrays leak, or null or dangling pointers are used (`C146_move_*_refuted`). (3) A copy takes `m` elements of the edge array, which are too few for packed graphs (`C146_copy_packed_refuted`) and for all compressed graphs with an edge (`C146_copy_compressed_refuted`; `run_app` makes such copies with `-c`). (4) A moved-from graph keeps `n` with null pointers, so copying it is undefined (`C146_copy_moved_refuted`).
* **C147**: `to_edge_array` keeps offsets in `uintT`, which has 32 bits unless `GBBSLONG` is defined; `.bazelrc` defines `LONG`, which no source reads. With 2^32 edges or more it writes out of bounds (`C147_overflow_refuted`).
* **C148**: `mark_seq` replaces the key by `empty_key - 1`, which `entries` and `map` do not filter out (`C148_entries_refuted`), and such slots are never used again, so that calls on a table without entries may not return (`C148_reuse_refuted`). `resize` reads `backing`, which is empty for tables over foreign memory, so all entries are lost (`C148_resize_foreign_refuted`); its `1 << k` overflows `int` when the sizes add up to more than 2^29 (`C148_resize_overflow_refuted`).
* **C149**: `SSWidestPathBF_F::update` stores the new width if the old one is *greater*, the reverse of its comment and of `updateAtomic`. It is not called with the flags `SSWidestPathBF` uses, but a run without `dense_forward` reports reachable vertices as unreachable (`C149_update_refuted`). Vertices reached over negative edges only get -1, as if unreachable (`C149_negative_refuted`).
* **C150**: `num_needs_normals * num_samples` and `num_samples * normals_indices[v]` are products of `uintE` (`similarity_measure.h:350`, `:371`, `:394`) and wrap from 2^32 on; the array of random numbers is then too short (`C150_wraps`). With `num_samples = 0`, `DivideRoundingUp` returns 2^58 arrays (`C150_no_samples`). Sums of `float` are formed in a different order for each vertex, so vertices with equal closed neighbourhoods can be separated by a hyperplane (`C150_float_refuted`; `rnd24` models the rounding of binary32 without overflow).
* **C151**: `sample_edges` and `count` add up the values of the predicate, while `filter` converts them to `bool`. With the value 2, which is how a predicate of the similar `filter_edges` selects an edge, `sample_edges` returns edges from 0 to 0 that are not in the graph (`C151_two_refuted`).
* **C152**: `sample_frequent_element` on an empty sequence draws from 0 to 2^32 - 1 and reads out of bounds (`C152_empty_refuted`). The samplers of ConnectIt and of the spanning forest framework call it without a check (`ConnectIt/sampling.h:27`), so they are undefined on a graph without vertices. The counter of the loop has the type of the labels, so 2^32 samples or more never end (`C152_loop_refuted`). `annotate_updates` divides by 0 if there are no vertices.
* **C154**: `atomic_max_counter` starts and resets to 0, so it is wrong for negative values (`C154_max_refuted`). `atomic_sum_counter` is atomic only for calls from different workers (`C154_same_id_refuted`).
* **C157**: `filter_edges` with the flag `no_output` still returns an array with one entry for each edge with value 2, and none of them is initialised (`C157_no_output_partial`).
* **C158**: `Triangle` with `-ordering kcore` uses `D[u]`, the vertex at position `u` of the degeneracy order, as the rank of `u` instead of the position of `u` (`Triangle.h:252-258`). The count is still exact, but the orientation is arbitrary: the centre of a star with six leaves gets five outgoing edges instead of at most one (`C158_kcore_orientation_refuted`).
* **C159**: `StergiouAlgorithm::compute_components` never increments `rounds`, so `previous_parents` is never copied and stays all zero. Every vertex with a neighbour gets the label 0, whether connected or not (`C159_labels`, `C159_refuted`: two disjoint edges).
* **C160**: `read_o_direct` (`gbbs/io.cc:81-146`) reads only the first page of a file whose size is a multiple of the size of a page, at least two pages and at most one chunk of 2^30 bytes; for longer files of whole pages all of the last chunk but its first page is missing. The division before `std::ceil` is an integer division, so `read_size` reaches the end of the file, the loop is left, and the last read asks for one page (`C160_refuted`; exact lengths in `C160_exact_partial`).
