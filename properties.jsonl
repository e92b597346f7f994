{"id": "C01", "title": "Byte-code adjacency lists decode to what was encoded", "statement": "Encoding the neighbour list of any vertex with the `byte` format and then decoding it visits exactly the original (neighbour, weight) pairs, in order, and consumes exactly the bytes that were produced, provided neighbours are strictly increasing.", "quantifier": "every source id, every strictly increasing neighbour list of any length, every signed 32-bit weight and the unweighted case", "why_tests_cant": "The variable-length code has infinitely many inputs and boundary cases (sign bit, 6-bit first byte, 7-bit groups); no finite suite of lists covers them.", "anchors": ["gbbs/encodings/byte.cc:compressFirstEdge", "gbbs/encodings/byte.h:eatFirstEdge,eatEdge,eatWeight,decode,compressEdge,compressWeight,sequentialCompressEdgeSet"]}
{"id": "C02", "title": "Packing a byte-coded list in place keeps exactly the selected neighbours and never destroys unread input", "statement": "`pack` on a byte-coded list rewrites it in place so that decoding the first k entries (k the returned degree) yields exactly the entries satisfying the predicate in their old order; at every moment the write cursor is at or behind the read cursor.", "quantifier": "every encoded list, every predicate", "why_tests_cant": "Depends on a length inequality of the code for arbitrary merged deltas; a failing input may need a rare combination of delta sizes.", "anchors": ["gbbs/encodings/byte.h:pack"]}
{"id": "C03", "title": "i-th neighbour of a byte-coded list", "statement": "`get_ith_neighbor(i)` returns the i-th neighbour (0-based) of the list for every i below the degree.", "quantifier": "every list, every index below the degree", "why_tests_cant": "All (list, index) pairs; the shipped code is off by one for i>=1, which tests on degree-1 lists do not show.", "anchors": ["gbbs/encodings/byte.h:get_ith_neighbor", "gbbs/encodings/byte_pd_amortized.h:get_ith_neighbor"]}
{"id": "C04", "title": "map_reduce over an encoded list equals the fold over the decoded list", "statement": "For any map function and monoid, `map_reduce` over a byte-coded list equals combining the mapped values of its decoded entries left to right; the parallel-byte version, which combines per-block partial results, gives the same value for every associative monoid.", "quantifier": "every list, map function and monoid, every number of blocks", "why_tests_cant": "Monoids and lists are unbounded; block boundary effects only show for particular degrees.", "anchors": ["gbbs/encodings/byte.h:map_reduce", "gbbs/encodings/byte_pd.h:map_reduce"]}
{"id": "C05", "title": "Parallel-byte (bytepd) lists decode to what was encoded", "statement": "Encoding a strictly increasing neighbour list of any length with the blocked `bytepd` format and decoding it, sequentially or block by block in any block order, yields exactly the original entries.", "quantifier": "every source id, list length (any number of 1000-entry blocks), weights, and every order in which blocks are decoded", "why_tests_cant": "Blocks boundaries at multiples of 1000 and variable-size block offsets make exhaustive testing impossible.", "anchors": ["gbbs/encodings/byte_pd.h:sequentialCompressEdgeSet,decode,decode_block", "gbbs/encodings/byte_pd.cc:compressFirstEdge"]}
{"id": "C06", "title": "Degree reported for each block of a bytepd list", "statement": "The per-block degrees used to schedule block-wise work sum to the vertex degree, and each equals the number of neighbours stored in that block.", "quantifier": "every degree", "why_tests_cant": "Fails only for degrees that are positive multiples of 1000.", "anchors": ["gbbs/encodings/byte_pd.cc:get_block_degree", "gbbs/vertex.h:block_degree", "gbbs/encodings/byte_pd_amortized.cc:get_block_degree"]}
{"id": "C07", "title": "Amortised parallel-byte lists decode to what was encoded", "statement": "Encoding with `bytepd_amortized` (virtual degree header, block offsets, per-block start counters) and decoding yields the original entries for every degree.", "quantifier": "every source id, list, weight", "why_tests_cant": "Unbounded inputs; block header arithmetic only goes wrong at particular sizes.", "anchors": ["gbbs/encodings/byte_pd_amortized.h:sequentialCompressEdgeSet,decode,get_virtual_degree"]}
{"id": "C08", "title": "Parallel merge-based intersection equals the sequential count", "statement": "For any two sorted duplicate-free lists the recursive parallel merge returns exactly the number of common elements, whatever the split points and base-case thresholds, and calls the user function once for each common element.", "quantifier": "every pair of strictly increasing lists, every base-case threshold", "why_tests_cant": "Recursion depth and split positions are unbounded.", "anchors": ["gbbs/intersect.h:intersect,intersect_f,intersection::seq_merge_full,seq_merge,merge"]}
{"id": "C09", "title": "Block-parallel filter equals sequential filter", "statement": "The block-parallel `filterf` (count per block, scan, write) outputs exactly the elements satisfying the predicate, in order, at positions 0..k-1, and returns k, for every input size, block size and order of execution of the blocks.", "quantifier": "every sequence, predicate, block size, and block schedule", "why_tests_cant": "All schedules and sizes around block boundaries.", "anchors": ["gbbs/bridge.h:filterf", "gbbs/vertex.h:uncompressed_neighbors::filter,pack"]}
{"id": "C10", "title": "Concurrent write_min / write_max linearise to the true extremum", "statement": "When any number of threads call `write_min` on one cell under any interleaving, after all return the cell holds the minimum of its initial value and all arguments; every call returning true strictly lowered the cell, and if the final value differs from the initial one at least one call returned true. Dually for `write_max`.", "quantifier": "every number of threads, every argument, every interleaving of the atomic loads and compare-and-swaps", "why_tests_cant": "Interleavings are unbounded and rare ones are not reached by stress tests.", "anchors": ["gbbs/bridge.h:write_min,write_max,atomic_compare_and_swap"]}
{"id": "C11", "title": "Concurrent fetch_and_add / write_add lose no update", "statement": "After any number of concurrent `fetch_and_add` or `write_add` calls the cell holds its initial value plus the sum of all arguments (modulo the word size), and the returned old values are exactly the partial sums of some order of the calls.", "quantifier": "every number of threads, arguments and interleaving", "why_tests_cant": "Lost updates depend on rare interleavings.", "anchors": ["gbbs/bridge.h:fetch_and_add,write_add"]}
{"id": "C12", "title": "Bounded fetch_and_add respects its threshold", "statement": "`fetch_and_add_threshold` succeeds only from a value at most the threshold, returns the previous value, leaves the cell unchanged when it reports failure, and the cell never exceeds max(initial, threshold + b).", "quantifier": "every interleaving of any number of callers", "why_tests_cant": "Races at the threshold.", "anchors": ["gbbs/bridge.h:fetch_and_add_threshold"]}
{"id": "C13", "title": "Bucket structure yields buckets in order and completely (increasing)", "statement": "With the increasing order, `next_bucket` returns the smallest bucket id among identifiers still in the structure and exactly those identifiers currently mapped to it, however identifiers were moved between extractions through get_bucket/update_buckets, for any number of materialised buckets; it returns the null bucket only when nothing is left.", "quantifier": "every number of identifiers and open buckets, every initial mapping and every history of updates that respects the interface contract", "why_tests_cant": "Histories are unbounded; overflow-range refills happen only after many steps.", "anchors": ["gbbs/bucket.h:buckets"]}
{"id": "C14", "title": "Bucket structure yields buckets in order and completely (decreasing)", "statement": "With the decreasing order, `next_bucket` returns the largest bucket id present and exactly the identifiers currently mapped to it.", "quantifier": "as C13", "why_tests_cant": "as C13", "anchors": ["gbbs/bucket.h:buckets"]}
{"id": "C15", "title": "Parallel update_buckets equals the sequential one", "statement": "The parallel histogram-based insertion used for large batches leaves every bucket with exactly the same contents, in the same order, as inserting the batch one by one, writes only inside the space reserved, and returns the number of inserted identifiers.", "quantifier": "every batch, number of blocks, number of buckets and order of execution of blocks", "why_tests_cant": "Only triggered for batches of at least 4096 and depends on block boundaries.", "anchors": ["gbbs/bucket.h:update_buckets,update_buckets_seq", "gbbs/helpers/dyn_arr.h:dyn_arr"]}
{"id": "C16", "title": "Converting a vertexSubset between sparse and dense preserves its members and data", "statement": "toDense followed by any reads, and toSparse on a dense subset, represent the same set of vertices with the same attached values; size() agrees with the number of members.", "quantifier": "every vertex count, every duplicate-free subset, every data assignment", "why_tests_cant": "All subsets of all sizes.", "anchors": ["gbbs/vertex_subset.h:vertexSubsetData::toSparse,toDense"]}
{"id": "C17", "title": "Adding vertices to a subset is visible in every later view", "statement": "After `add_to_vsubset(vs, new, k)` with vertices not already present, membership seen through either representation is the old set union the new vertices and size() grows by k.", "quantifier": "every subset state reachable through the API and every batch of new vertices", "why_tests_cant": "Only fails for subsets for which both representations have been materialised.", "anchors": ["gbbs/vertex_subset.h:add_to_vsubset"]}
{"id": "C18", "title": "edgeMap's chunked traversal processes every out-edge of the frontier exactly once", "statement": "The chunked sparse traversal splits the frontier's edges into blocks and groups such that every (frontier vertex, edge) pair is processed by exactly one group, exactly once, and every emitted output slot fits the group's buffer.", "quantifier": "every frontier, degree sequence and number of workers/groups", "why_tests_cant": "Depends on arithmetic at block and group boundaries for unbounded degree sequences.", "anchors": ["gbbs/edge_map_blocked.h:edgeMapChunked,emhelper"]}
{"id": "C19", "title": "edgeMap returns the same frontier whichever traversal is chosen", "statement": "For a client function whose update succeeds once per destination (claim pattern), the set of vertices returned by edgeMap is {d : cond d and some frontier s has an edge to d accepted}, independently of whether the sparse, dense or dense-forward traversal is selected and of the interleaving of updates.", "quantifier": "every graph, frontier, traversal choice, interleaving", "why_tests_cant": "The direction switch depends on input sizes; interleavings are unbounded.", "anchors": ["gbbs/edge_map_data.h:edgeMapDense,edgeMapDenseForward,edgeMapData", "gbbs/edge_map_blocked.h:edgeMapChunked"]}
{"id": "C20", "title": "Concurrent insertion into the phase-concurrent hash table", "statement": "After any interleaving of insertions of any keys into a table with at least one free slot, each inserted key occurs in exactly one slot, exactly one insertion per new key returned true, no other key occurs, and a later `contains`/`find` answers membership correctly.", "quantifier": "every table size, hash function, key multiset and interleaving", "why_tests_cant": "Probe collisions and CAS races.", "anchors": ["gbbs/helpers/sparse_table.h:sparse_table::insert,contains,find,entries"]}
{"id": "C21", "title": "Sequential counting hash table counts correctly", "statement": "Inserting a sequence of keys with insertAdd and compacting yields each distinct key exactly once paired with its number of occurrences (for the key overload) or the sum of its values (for the pair overload).", "quantifier": "every key sequence not using the reserved empty key, every hash function, table with a free slot", "why_tests_cant": "Unbounded key sequences and collisions.", "anchors": ["gbbs/helpers/sequential_ht.h:sequentialHT::insertAdd,insertF,find,compactInto"]}
{"id": "C22", "title": "CSR construction from an edge list", "statement": "Building a symmetric graph from a sorted edge list gives each vertex exactly its edges: the offsets/degrees computed delimit, for every vertex, exactly the run of edges with that source, and the degrees sum to m.", "quantifier": "every n and every edge list sorted by source with endpoints below n", "why_tests_cant": "Vertices without edges before, between or after runs need separate handling for every pattern.", "anchors": ["gbbs/edge_array.h:EdgeUtils::compute_offsets,get_neighbors", "gbbs/graph.h:symmetric_graph::from_edges"]}
{"id": "C23", "title": "Default vertex count of from_edges", "statement": "When no vertex count is supplied, from_edges uses one more than the largest endpoint.", "quantifier": "every edge list", "why_tests_cant": "Shipped code adds endpoints instead of taking the maximum; single-edge tests hide it.", "anchors": ["gbbs/graph.h:from_edges"]}
{"id": "C24", "title": "Edge-list loading yields a simple symmetric graph", "statement": "Converting an edge list to a symmetric graph yields, for every vertex, a strictly increasing neighbour list; v is a neighbour of u iff u is a neighbour of v iff {u,v} (u != v) occurs in the list in some direction.", "quantifier": "every edge list (any duplicates, orientation, self loops)", "why_tests_cant": "Unbounded inputs.", "anchors": ["gbbs/graph_io.h:edge_list_to_symmetric_graph,sorted_edges_to_vertex_data_array,sort_and_dedupe", "gbbs/edge_array.h:undirect_and_sort"]}
{"id": "C25", "title": "Adjacency-graph text files round-trip", "statement": "Writing an unweighted graph to the AdjacencyGraph text format and parsing it back gives the same offsets and neighbour array.", "quantifier": "every graph", "why_tests_cant": "Unbounded graphs, digit counts and token positions.", "anchors": ["gbbs/graph_io.h:write_graph_to_file", "gbbs/graph_io.cc:parse_unweighted_graph"]}
{"id": "C26", "title": "Integer weights survive text parsing", "statement": "Parsing a weighted AdjacencyGraph text file returns the integer weights written in it.", "quantifier": "every 32-bit weight", "why_tests_cant": "Weights above 2^24 go through single precision floating point.", "anchors": ["gbbs/graph_io.h:parse_weighted_graph"]}
{"id": "C27", "title": "In-neighbours of a loaded directed graph are the transpose", "statement": "For a directed graph read from text, u is listed among v's in-neighbours exactly as many times as v is listed among u's out-neighbours, and in-degrees are right for every vertex.", "quantifier": "every directed graph", "why_tests_cant": "Vertices without in-edges at any positions, including the last vertices.", "anchors": ["gbbs/graph_io.cc:read_unweighted_asymmetric_graph", "gbbs/graph_io.h:read_weighted_asymmetric_graph"]}
{"id": "C28", "title": "Graph filtering keeps exactly the selected edges", "statement": "filter_graph returns a graph in which v is an out-neighbour of u iff it was before and the predicate holds, order preserved, with m equal to the number of kept edges; packEdges-based filtering does the same in place.", "quantifier": "every graph and predicate", "why_tests_cant": "Unbounded graphs and predicates.", "anchors": ["gbbs/graph_mutation.h:filter_graph,filter_edges,packEdges"]}
{"id": "C29", "title": "Cluster relabelling is a dense, order-preserving renaming", "statement": "RelabelIds maps ids in [0,n) onto [0,u) where u is the number of distinct ids; equal ids stay equal, distinct ids stay distinct, relative order is preserved, and u is returned.", "quantifier": "every id array with values below its length and every interleaving of the flag writes", "why_tests_cant": "Unbounded arrays.", "anchors": ["gbbs/contract.h:RelabelIds"]}
{"id": "C30", "title": "Concurrent union-find computes connected components", "statement": "For any number of threads concurrently running unite on any pairs with any find variant (naive, compress, split, halve), under any interleaving: elements share a root only if connected by the requested pairs, and once a unite(u,v) call has returned u and v share a root forever; parent pointers never form a cycle.", "quantifier": "every n, every set of unite calls, every interleaving of the individual loads, stores and CASes", "why_tests_cant": "Interleavings unbounded.", "anchors": ["benchmarks/Connectivity/UnionFind/union_find_rules.h:Unite,find_naive,find_compress,find_atomic_split,find_atomic_halve"]}
{"id": "C31", "title": "Union-find return values identify a spanning forest", "statement": "The calls of unite that report a hooked root are in bijection with merges, so that the edges recorded for them form a spanning forest: exactly n minus the number of components edges.", "quantifier": "every interleaving", "why_tests_cant": "A duplicate report needs a precise three-step race.", "anchors": ["benchmarks/Connectivity/UnionFind/union_find_rules.h:Unite,UniteRemCAS", "benchmarks/SpanningForest/UnionFind/union_find_rules.h"]}
{"id": "C32", "title": "BFS parents form a shortest-path tree", "statement": "BFS returns a parent array in which exactly the vertices reachable from the source have a parent, the source is its own parent, and following parents from v reaches the source in exactly dist(source,v) steps.", "quantifier": "every graph, source and interleaving of the CAS claims within a round", "why_tests_cant": "Racy claims; unbounded graphs.", "anchors": ["benchmarks/BFS/NonDeterministicBFS/BFS.h:BFS,BFS_F"]}
{"id": "C33", "title": "Bellman-Ford computes shortest path distances", "statement": "On graphs without negative cycles reachable from the source, the distances returned equal the true shortest path lengths (infinite when unreachable); with a reachable negative cycle it is detected.", "quantifier": "every weighted graph, every interleaving", "why_tests_cant": "Racy relaxation rounds.", "anchors": ["benchmarks/GeneralWeightSSSP/BellmanFord/BellmanFord.h:BellmanFord,BF_F"]}
{"id": "C34", "title": "Weighted BFS (bucketed integral SSSP) computes shortest path distances", "statement": "wBFS returns the true shortest path distances for non-negative integer weights.", "quantifier": "every graph with weights >= 1, every interleaving within a round", "why_tests_cant": "Bucket ranges and top-bit claims interact.", "anchors": ["benchmarks/IntegralWeightSSSP/JulienneDBS17/wBFS.h:wBFS,Visit_F"]}
{"id": "C35", "title": "Delta-stepping re-buckets every improved vertex", "statement": "In delta-stepping, whenever a round of concurrent relaxations lowers the tentative distance of a vertex, the vertex is (re)inserted in the bucket of its new distance.", "quantifier": "every interleaving of concurrent relaxations of the same vertex", "why_tests_cant": "Requires a two-thread race between the distance read and the claim of the visited flag.", "anchors": ["benchmarks/PositiveWeightSSSP/DeltaStepping/DeltaStepping.h:Visit_F::updateAtomic,DeltaStepping"]}
{"id": "C36", "title": "Widest path inserts every reached vertex in a bucket", "statement": "When the bucketed widest-path algorithm first reaches a vertex it is inserted in the bucket structure, so that its out-edges are relaxed and final widths are the true bottleneck capacities.", "quantifier": "every graph, maximum weight, number of buckets", "why_tests_cant": "Fails only if both the maximum weight and the new bucket lie in the overflow range.", "anchors": ["benchmarks/SSWidestPath/JulienneDBS17/SSWidestPath.h:SSWidestPath"]}
{"id": "C37", "title": "k-core decomposition returns the coreness of every vertex", "statement": "KCore returns for each vertex v the largest k such that v belongs to a subgraph of minimum degree at least k.", "quantifier": "every symmetric graph, every order in which simultaneous vertices are peeled", "why_tests_cant": "Unbounded graphs.", "anchors": ["benchmarks/KCore/JulienneDBS17/KCore.h:KCore"]}
{"id": "C38", "title": "Fetch-and-add k-core agrees with k-core", "statement": "KCore_FA returns the same coreness values as KCore.", "quantifier": "every symmetric graph", "why_tests_cant": "The emission test differs between the sparse and dense traversals.", "anchors": ["benchmarks/KCore/JulienneDBS17/KCore.h:KCore_FA,kcore_fetch_add"]}
{"id": "C39", "title": "Rootset MIS returns the lexicographically first maximal independent set", "statement": "MaximalIndependentSet returns a set with no two adjacent vertices, such that every other vertex has a neighbour in it; it is the greedy set for the random priority order, whatever the interleaving.", "quantifier": "every symmetric graph without self loops, every priority permutation, every interleaving", "why_tests_cant": "Interleavings and permutations unbounded.", "anchors": ["benchmarks/MaximalIndependentSet/RandomGreedy/MaximalIndependentSet.h"]}
{"id": "C40", "title": "Graph colouring is proper", "statement": "Coloring assigns different colours to adjacent vertices.", "quantifier": "every symmetric loop-free graph, every priority order", "why_tests_cant": "Unbounded graphs.", "anchors": ["benchmarks/GraphColoring/Hasenplaugh14/GraphColoring.h:Coloring,coloring::color"]}
{"id": "C41", "title": "Colouring uses at most degree+1 colours", "statement": "Each vertex v receives a colour in [0, deg(v)].", "quantifier": "every graph", "why_tests_cant": "Fails exactly when the deg(v) neighbours use all of 0..deg(v)-1.", "anchors": ["benchmarks/GraphColoring/Hasenplaugh14/GraphColoring.h:coloring::color"]}
{"id": "C42", "title": "Maximal matching edge extraction terminates and extracts all live edges", "statement": "get_edges returns, for every graph and matched set, the list of live edges (when fewer than k) and terminates.", "quantifier": "every graph and matching state", "why_tests_cant": "Hang requires a particular coincidence of edge index and vertex count.", "anchors": ["benchmarks/MaximalMatching/RandomGreedy/MaximalMatching.h:mm::get_edges"]}
{"id": "C43", "title": "Deterministic reservations commit a greedy matching", "statement": "Running the reserve/commit rounds over an edge list marks exactly the edges of the sequential greedy matching over that list: a matching, maximal with respect to the list.", "quantifier": "every edge list, round size and interleaving of reservations", "why_tests_cant": "Interleavings and round sizes unbounded.", "anchors": ["benchmarks/MaximalMatching/RandomGreedy/MaximalMatching.h:mm::matchStep", "gbbs/helpers/speculative_for.h:eff_for"]}
{"id": "C44", "title": "Kruskal returns a minimum spanning forest", "statement": "The edges returned by Kruskal form a spanning forest of minimum total weight.", "quantifier": "every weighted symmetric graph with at least one edge", "why_tests_cant": "Optimality quantifies over all spanning forests.", "anchors": ["benchmarks/MinimumSpanningForest/Kruskal/MinimumSpanningForest.h"]}
{"id": "C45", "title": "Triangle counting is exact", "statement": "The triangle count returned equals the number of unordered vertex triples that are pairwise adjacent, for every total order used to orient edges; the callback is called exactly once for each of them; work balancing assigns each vertex that has work to exactly one block.", "quantifier": "every simple symmetric graph, every injective ranking and every schedule of the blocks", "why_tests_cant": "Unbounded graphs and orders.", "anchors": ["benchmarks/TriangleCounting/ShunTangwongsan15/Triangle.h:CountDirectedBalanced,Triangle_degree_ordering"]}
{"id": "C46", "title": "Low-diameter decomposition partitions into connected clusters", "statement": "LDD finishes without indexing its shifts or its permutation out of range and assigns each vertex a cluster id; the id is the id of a vertex in that cluster, every vertex is reached from it inside the cluster by fewer steps than there are rounds, and on symmetric graphs each cluster induces a connected subgraph.", "quantifier": "every graph, edge oracle, shift schedule, permutation and interleaving", "why_tests_cant": "Interleavings unbounded.", "anchors": ["benchmarks/LowDiameterDecomposition/MPX13/LowDiameterDecomposition.h:LDD_impl,LDD_F"]}
{"id": "C47", "title": "Greedy densest subgraph is a 2-approximation", "statement": "The density reported by CharikarAppxDensestSubgraph is the density of some subgraph and at least half of the maximum subgraph density; the program does not stop on its own consistency check.", "quantifier": "every symmetric graph, every execution of the peeling, every schedule of the two loops", "why_tests_cant": "Quantifies over all subgraphs; the shipped code divides the edges that remain after removing a vertex by the number of vertices before removing it and never considers the whole graph, which only shows on dense small graphs.", "anchors": ["benchmarks/ApproximateDensestSubgraph/GreedyCharikar/DensestSubgraph.h:CharikarAppxDensestSubgraph"]}
{"id": "C48", "title": "Speculative loops commit every iteration", "statement": "speculative_for/eff_for executes rounds until every iteration in [s,e) has been committed or discarded, retries failed ones in index order, and performs commits of an index at most once successfully.", "quantifier": "every range, granularity, reserve/commit behaviour", "why_tests_cant": "Unbounded histories of partial success.", "anchors": ["gbbs/helpers/speculative_for.h:speculative_for,eff_for"]}
{"id": "C49", "title": "Intersection of byte-compressed lists", "statement": "Intersecting two compressed adjacency lists calls the user function once per common neighbour, in increasing order, and returns the number of common neighbours, without touching memory outside the two encodings.", "quantifier": "every pair of sorted neighbour lists of any length (including lists that are exhausted first), every memory content around them", "why_tests_cant": "Out-of-range reads depend on the bytes that happen to follow the encoding.", "anchors": ["gbbs/encodings/byte.h:intersect,intersect_f,iter"]}
{"id": "C50", "title": "Packing and filtering a parallel-byte list keeps exactly the accepted neighbours", "statement": "`pack(pred)` on a bytepd-encoded neighbour list leaves a list that decodes to exactly the accepted entries in order, returns their number, and modifies no byte outside the list; `filter(pred)` emits exactly the accepted entries in order.", "quantifier": "every list of any length (including the empty list and lists of several 1000-entry blocks), every predicate", "why_tests_cant": "Depends on the bytes around the list and on the list length; unit tests use small graphs with one block.", "anchors": ["gbbs/encodings/byte_pd.h:pack,packBlock,filter"]}
{"id": "C51", "title": "Any history of packs of an amortised list keeps exactly the entries accepted by all predicates", "statement": "After encoding a list with bytepd_amortized and any sequence of `pack` calls, including those that trigger re-packing into fewer blocks, the reported degree is the number of entries accepted by all predicates so far, every traversal visits exactly those entries in order, and no byte outside the vertex's original bytes was changed.", "quantifier": "every list, every sequence of predicates, every schedule of the parallel block loops", "why_tests_cant": "Quantifies over histories of in-place updates and over schedules; the re-packing path needs large lists with few survivors.", "anchors": ["gbbs/encodings/byte_pd_amortized.h:pack,repack"]}
{"id": "C52", "title": "next_bucket never lists an identifier twice", "statement": "Under the contract documented at get_bucket (identifiers in the structure move only to earlier buckets, or extracted identifiers are reinserted), the list returned by next_bucket has no duplicates, so a client may process it in parallel without synchronisation.", "quantifier": "every history of extractions and contract-respecting moves, both orders, both get_bucket variants", "why_tests_cant": "Lazy deletion leaves stale copies of identifiers in buckets; whether two live copies can meet depends on the whole history.", "anchors": ["gbbs/bucket.h:get_bucket,next_bucket,unpack"]}
{"id": "C53", "title": "vertexFilter keeps exactly the accepted members", "statement": "vertexFilter(vs, f) returns a vertexSubset whose members are exactly the members v of vs with f(v) (and f(v, data) for subsets with data), each once, whichever representation vs has and whichever of the dense and sparse variants is selected.", "quantifier": "every subset in either representation, predicate and variant", "why_tests_cant": "The variant is selected by density; the sparse variant compacts in parallel.", "anchors": ["gbbs/vertex_subset.h:vertexFilter,vertexFilter_dense,vertexFilter_sparse"]}
{"id": "C54", "title": "edgeMap's cached degree sum never changes its result", "statement": "The result of edgeMap on a vertexSubset does not depend on earlier edgeMap calls on the same subset (possibly in the other direction) nor on add_to_vsubset calls in between: the degree sum cached in the subset is always the one of the current members in the direction of the call.", "quantifier": "every graph, subset and sequence of edgeMap/add_to_vsubset calls", "why_tests_cant": "The cache only matters for repeated uses of one subset, a history dependent effect.", "anchors": ["gbbs/edge_map_data.h:edgeMapData", "gbbs/vertex_subset.h:set_out_degrees,add_to_vsubset"]}
{"id": "C55", "title": "Additive concurrent map sums values", "statement": "After any interleaving of insertions into a sparse_additive_map created for at least as many distinct keys as are inserted, every inserted key occurs once with the sum of the values inserted for it, and lookups of present and absent keys terminate.", "quantifier": "every interleaving, every set of key/value pairs up to the declared size", "why_tests_cant": "Summation uses a racy claim of the slot followed by an atomic add, and the table may be exactly full.", "anchors": ["gbbs/helpers/sparse_additive_map.h:insert,contains,find"]}
{"id": "C56", "title": "Loaded undirected edges have one weight", "statement": "In a symmetric weighted graph built from an edge list, the weight stored for (u,v) equals the weight stored for (v,u).", "quantifier": "every edge list including repeated pairs, every admissible result of the (unstable) parallel sort", "why_tests_cant": "Which duplicate survives depends on the sort; small tests use a sequential stable path.", "anchors": ["gbbs/graph_io.h:edge_list_to_symmetric_graph,sort_and_dedupe", "gbbs/edge_array.h:undirect_and_sort"]}
{"id": "C57", "title": "Graphs can be read from a byte buffer", "statement": "Reading a graph through the entry points that accept a pointer to the file contents (bytes, bytes_size) gives the same graph as reading a file with these contents.", "quantifier": "every text graph and buffer", "why_tests_cant": "Every test in the repository reads from files; the buffer path is never exercised.", "anchors": ["gbbs/graph_io.cc:parse_unweighted_graph", "gbbs/graph_io.h:parse_weighted_graph"]}
{"id": "C58", "title": "Union-find connectivity labels are the least vertices of the components", "statement": "After compute_components (without sampling) on a symmetric graph, parents[i] is the least vertex connected to i; in particular parents[i] == parents[j] iff i and j are connected, whatever the schedule of the unite phase and of the concurrent final find phase.", "quantifier": "every symmetric graph, find variant, and interleaving of both phases", "why_tests_cant": "In the final loop every vertex is overwritten while other threads traverse and compress through it.", "anchors": ["benchmarks/Connectivity/UnionFind/Connectivity.h:UFAlgorithm::compute_components", "benchmarks/Connectivity/UnionFind/union_find_rules.h"]}
{"id": "C59", "title": "Spanning forest edges span", "statement": "After compute_spanning_forest the pairs stored in Edges are edges of the graph, exactly n minus the number of components many, and they connect every two vertices that the graph connects, for every unite rule.", "quantifier": "every symmetric graph, unite rule and interleaving", "why_tests_cant": "The recorded edge and the hook are separate memory effects; a lost edge shows only as a missing connection on particular edge orders.", "anchors": ["benchmarks/SpanningForest/UnionFind/union_find_rules.h:Unite,UniteEarly,UniteND,UniteRemCAS", "benchmarks/SpanningForest/UnionFind/SpanningForest.h"]}
{"id": "C60", "title": "Maximal matching completes", "statement": "MaximalMatching on a symmetric graph completes: the call eff_for(mStep, 0, edges.size(), 50, 0, G.n) never stops the process for lack of tries.", "quantifier": "every edge list and number of vertices, every interleaving", "why_tests_cant": "The number of rounds depends on the round size, the number of edges and the number of vertices together; the tests in the repository have at most as many edges as vertices.", "anchors": ["benchmarks/MaximalMatching/RandomGreedy/MaximalMatching.h:MaximalMatching", "gbbs/helpers/speculative_for.h:eff_for"]}
{"id": "C61", "title": "Speculative MIS is the lexicographically first one", "statement": "MaximalIndependentSet_spec_for::MaximalIndependentSet returns Flags with values 1 and 2 only; the vertices with value 1 are the greedy maximal independent set in the order of the vertex ids, whatever the round sizes; it needs at most n rounds.", "quantifier": "every symmetric graph, granularity and schedule", "why_tests_cant": "A vertex is retried over rounds depending on neighbours decided in the same round; which vertices meet in a round depends on the adaptive round size.", "anchors": ["benchmarks/MaximalIndependentSet/RandomGreedy/MaximalIndependentSet.h:MaximalIndependentSet_spec_for", "gbbs/helpers/speculative_for.h:eff_for"]}
{"id": "C62", "title": "DegeneracyOrder returns a degeneracy order", "statement": "DegeneracyOrder returns every vertex exactly once; coreness never decreases along the order, and no vertex has more neighbours after it in the order than its coreness (hence than the degeneracy of the graph).", "quantifier": "every symmetric graph with degrees below 2^32-1, every execution of the bucket structure and histogram", "why_tests_cant": "Unbounded graphs; the order inside a bucket depends on the schedule, so a test fixes only one of many.", "anchors": ["benchmarks/KCore/JulienneDBS17/KCore.h:DegeneracyOrder"]}
{"id": "C63", "title": "DegeneracyOrderWithLoad returns an order of the vertices", "statement": "DegeneracyOrderWithLoad returns a sequence in which every vertex occurs exactly once.", "quantifier": "every graph, initial loads and execution", "why_tests_cant": "The result has the right multiset of vertices in its second half; tests that look only at membership pass, while every caller that reads entry i as the i-th vertex gets vertex 0.", "anchors": ["benchmarks/KCore/JulienneDBS17/KCore.h:DegeneracyOrderWithLoad"]}
{"id": "C64", "title": "GreedyPlusPlus returns a density", "statement": "GreedyPlusPlusDensestSubgraph returns the density of some subgraph: it neither reads outside its sequences nor stops the program.", "quantifier": "every symmetric graph, every schedule of its racy loops", "why_tests_cant": "Depends on a data race on the positions; the claim that no schedule helps needs all of them.", "anchors": ["benchmarks/ApproximateDensestSubgraph/GreedyPlusPlus/DensestSubgraph.h:GreedyPlusPlusDensestSubgraph"]}
{"id": "C65", "title": "Goodrich-Pszona order by sorting is (2+epsilon)-approximate", "statement": "DegeneracyOrder_intsort returns ranks that are a bijection onto [0,n), and if every subgraph has at most d edges per vertex, every vertex has at most (2+epsilon)*d neighbours of larger rank.", "quantifier": "every symmetric graph, every epsilon > 0, every sort", "why_tests_cant": "A violation needs a graph whose low-degree part is exhausted first, so that the fixed batch size covers most of what is left; random tests do not produce it.", "anchors": ["benchmarks/DegeneracyOrder/GoodrichPszona11/DegeneracyOrder.h:DegeneracyOrder_intsort"]}
{"id": "C66", "title": "Goodrich-Pszona order by thresholds returns every vertex once", "statement": "goodrichpszona_degen::DegeneracyOrder returns a sequence with every vertex exactly once and reads only inside the sampled degrees.", "quantifier": "every graph, every epsilon > 0, every outcome of the sampling", "why_tests_cant": "The out-of-range read depends on the random samples and on how many vertices are left in the last round; it usually reads a plausible value.", "anchors": ["benchmarks/DegeneracyOrder/GoodrichPszona11/DegeneracyOrder.h:DegeneracyOrder", "gbbs/bridge.h:approximate_kth_smallest"]}
{"id": "C67", "title": "Barenboim-Elkin order peels low-degree vertices first", "statement": "barenboimelkin_degen::DegeneracyOrder terminates with ranks that are a bijection, removing in every round the vertices whose remaining degree is below the cutoff before the others.", "quantifier": "every symmetric graph, every cutoff, every sort", "why_tests_cant": "Whether it terminates depends on the degrees that remain after arbitrary rounds.", "anchors": ["benchmarks/DegeneracyOrder/BarenboimElkin08/DegeneracyOrder.h:DegeneracyOrder"]}
{"id": "C68", "title": "BFS connectivity labels the components", "statement": "bfs_cc::CC(G) returns labels that are equal for two vertices exactly if they are connected.", "quantifier": "every symmetric graph, every traversal and interleaving", "why_tests_cant": "Vertices without edges are skipped and all keep UINT_E_MAX, so any two of them get equal labels; tests on connected or edge-covered graphs pass.", "anchors": ["benchmarks/Connectivity/BFSCC/Connectivity.h:CC"]}
{"id": "C69", "title": "Shiloach-Vishkin labels the components", "statement": "shiloachvishkin_cc::SVAlgorithm::compute_components, from the identity or from the labels of a sample with any label treated as the most frequent one, ends with labels that are equal exactly within components.", "quantifier": "every symmetric graph, every sample, every interleaving of the hooking and of the racy compression", "why_tests_cant": "The compression loop reads and writes parents without synchronisation; the outcomes of its interleavings cannot be enumerated by tests.", "anchors": ["benchmarks/Connectivity/ShiloachVishkin/Connectivity.h:compute_components"]}
{"id": "C70", "title": "Incremental Shiloach-Vishkin: batches of insertions", "statement": "After a sequence of process_batch calls, two vertices have the same root exactly if the inserted edges connect them.", "quantifier": "every sequence of batches, every interleaving", "why_tests_cant": "The failure needs three batches in an order that leaves prev_parents of an unmentioned vertex stale.", "anchors": ["benchmarks/Connectivity/ShiloachVishkin/Connectivity.h:process_batch"]}
{"id": "C71", "title": "Label propagation labels the components", "statement": "labelprop_cc::LPAlgorithm::compute_components ends, whichever traversals edgeMap takes and however its updates interleave, with labels that are equal exactly within components; also after sampling with the most frequent label renamed.", "quantifier": "every symmetric graph, every sample, every traversal and interleaving", "why_tests_cant": "Vertices are put in the next frontier by flags that race with the label updates; a lost emission needs a particular interleaving.", "anchors": ["benchmarks/Connectivity/LabelPropagation/Connectivity.h:compute_components", "benchmarks/Connectivity/ConnectIt/sampling.h:components"]}
{"id": "C72", "title": "k-out sampling yields labels to start from", "statement": "KOutSamplingTemplate::initial_components labels every vertex with a vertex of its own component that is its own label; followed by Shiloach-Vishkin or label propagation the result is the components.", "quantifier": "every symmetric graph, every number of rounds, every choice of neighbours, every interleaving of link and of the compression", "why_tests_cant": "link is a lock-free loop; whether concurrent links can create a cycle or join different components is a question about all interleavings.", "anchors": ["benchmarks/Connectivity/ConnectIt/sampling.h:link", "benchmarks/Connectivity/ConnectIt/sampling.h:initial_components"]}
{"id": "C73", "title": "BFS sampling ends with the component of its source", "statement": "BFS_ComponentLabel(G, src) ends, labels exactly the vertices of the component of src with src and leaves the others alone; label propagation from it, or from an LDD sample, yields the components.", "quantifier": "every symmetric graph, every source, every interleaving", "why_tests_cant": "The search hangs only on a source with an edge to itself and only in sparse rounds, i.e. in graphs with enough other edges.", "anchors": ["benchmarks/Connectivity/ConnectIt/sampling.h:BFS_ComponentLabel", "benchmarks/Connectivity/ConnectIt/sampling.h:LDDSamplingTemplate"]}
{"id": "C74", "title": "contract returns the contracted graph", "statement": "contract(G, clusters, num_clusters) with cluster ids in range returns the graph whose vertices are the clusters with an edge to another cluster, with exactly one edge in each direction between two clusters joined by an edge and no loops; S[i] == S[i+1] exactly for the singletons, S numbers the others, and T is the inverse. It always returns.", "quantifier": "every symmetric graph, every clustering, every hash function, every interleaving of the hash-table insertions and of the flag loop", "why_tests_cant": "The table for fewer than 2048 clusters has a fixed size, so only clusterings with few clusters but thousands of distinct adjacent pairs fill it; duplicates are removed by racing insertions.", "anchors": ["gbbs/contract.h:contract", "gbbs/contract.h:fetch_intercluster_small", "gbbs/contract.h:fetch_intercluster", "gbbs/contract.h:fetch_intercluster_te"]}
{"id": "C75", "title": "Work-efficient connectivity labels components", "statement": "workefficient_cc::CC(G, beta, pack, permute) returns labels in [0, n) that are equal exactly for vertices in the same component, after at most n + 1 nested levels.", "quantifier": "every symmetric graph, every permutation, every interleaving at every level", "why_tests_cant": "The result is composed from a low-diameter decomposition, a renaming, a contraction and a recursive call, all racing; whether the contraction ends depends on the number of pairs of adjacent clusters, not on the size of the graph.", "anchors": ["benchmarks/Connectivity/WorkEfficientSDB14/Connectivity.h:CC_impl", "benchmarks/Connectivity/WorkEfficientSDB14/Connectivity.h:CC"]}
{"id": "C76", "title": "PageRank_edgeMap returns the PageRank vector up to the tolerance", "statement": "PageRank_edgeMap(G, eps, max_iters) returns non-negative ranks that add up to 1 and whose L1 distance to the unique stationary vector of the random surfer (damping 0.85, uniform jumps, also from vertices without out-edges) is at most 17/3 eps if the iteration converges within max_iters, and the last iterate otherwise.", "quantifier": "every directed or undirected graph, every eps and max_iters, every traversal of edgeMap and every interleaving of its additions", "why_tests_cant": "Tests compare a few small symmetric graphs that converge; that the two arrays are swapped after zeroing one of them only shows when max_iters is reached. Lost additions need particular interleavings.", "anchors": ["benchmarks/PageRank/PageRank.h:PageRank_edgeMap", "benchmarks/PageRank/PageRank.h:PR_F"]}
{"id": "C77", "title": "PageRank agrees with PageRank_edgeMap", "statement": "PageRank(G, eps, max_iters) returns the same vector as PageRank_edgeMap, for undirected and directed graphs (as the file comment says).", "quantifier": "every graph, every eps and max_iters", "why_tests_cant": "The existing tests have a TODO for directed graphs; the reduction goes over out-neighbours, which is invisible on symmetric graphs.", "anchors": ["benchmarks/PageRank/PageRank.h:PageRank", "gbbs/edge_map_reduce.h:edgeMapReduce_dense"]}
{"id": "C78", "title": "PageRankDelta approximates the PageRank vector", "statement": "PageRankDelta(G, eps, local_eps, max_iters) returns ranks near the PageRank vector on graphs in which every vertex has out-edges; in particular they add up to about 1.", "quantifier": "every such graph, every choice between the sparse and dense rounds, every interleaving", "why_tests_cant": "There is no test; on regular graphs, where nothing changes in the first round, the result is right.", "anchors": ["benchmarks/PageRank/PageRank.h:PageRankDelta", "benchmarks/PageRank/PageRank.h:sparse_or_dense", "benchmarks/PageRank/PageRank.h:PR_Vertex_F_FirstRound"]}
{"id": "C79", "title": "SSBetweennessCentrality returns the dependencies of the start vertex", "statement": "SSBetweennessCentrality(G, start) returns for every vertex v the sum over all targets t other than v of the fraction of the shortest paths from start to t that pass v; 0 for vertices that cannot be reached.", "quantifier": "every directed or undirected graph, every start, every traversal of edgeMap and every interleaving of its additions, in both directions", "why_tests_cant": "Tests compare a few small connected graphs; lost or doubled additions need particular interleavings, and the number of paths of unreachable vertices is inverted only in disconnected graphs.", "anchors": ["benchmarks/SSBetweenessCentrality/Brandes/SSBetweennessCentrality.h:SSBetweennessCentrality", "benchmarks/SSBetweenessCentrality/Brandes/SSBetweennessCentrality.h:SSBetweennessCentrality_F"]}
{"id": "C80", "title": "SSBetweennessCentrality_BFS returns the dependencies of the start vertex", "statement": "SSBetweennessCentrality_BFS(G, start) returns the same values as SSBetweennessCentrality(G, start), and 0 for vertices that cannot be reached.", "quantifier": "every directed or undirected graph, every start, every traversal and interleaving of the search", "why_tests_cant": "The sums go over all neighbours marked finished, not over a level; that no other level contributes is an argument about distances in all graphs.", "anchors": ["benchmarks/SSBetweenessCentrality/Brandes/SSBetweennessCentrality.h:SSBetweennessCentrality_BFS", "benchmarks/SSBetweenessCentrality/Brandes/SSBetweennessCentrality.h:BFS_F"]}
{"id": "C81", "title": "SSBetweennessCentrality_EM returns the dependencies of the start vertex", "statement": "SSBetweennessCentrality_EM(G, start) reads only inside its arrays and returns the same values as SSBetweennessCentrality(G, start), and 0 for vertices that cannot be reached, whichever of its two branches each round takes.", "quantifier": "every directed or undirected graph of every size, every start, every sequence of branches, every interleaving", "why_tests_cant": "The dense branch reads the values of all neighbours, also outside the frontier; the branch is chosen from degrees of unrelated vertices. An out-of-bounds read usually goes unnoticed.", "anchors": ["benchmarks/SSBetweenessCentrality/Brandes/SSBetweennessCentrality.h:SSBetweennessCentrality_EM", "benchmarks/SSBetweenessCentrality/Brandes/SSBetweennessCentrality.h:sparse_fa_dense_em", "gbbs/edge_map_reduce.h:edgeMapReduce_dense"]}
{"id": "C82", "title": "resizable_table is a concurrent set of pairs", "statement": "After parallel calls of insert on a resizable_table, the table holds exactly the old and the inserted pairs, each once; for every new pair exactly one call returned true and for an old pair none did; update_nelms makes ne the number of pairs. contains, num_appearances, the iterator, map and entries agree with the set. maybe_resize(k) keeps the pairs, and afterwards k insertions return.", "quantifier": "every table, every number of pairs with any keys and values, every hash function, every interleaving of the insertions", "why_tests_cant": "Duplicates and lost pairs need races on one slot; that a chain of slots with other keys never hides a pair is an argument over all tables.", "anchors": ["gbbs/helpers/resizable_table.h:insert", "gbbs/helpers/resizable_table.h:maybe_resize", "gbbs/helpers/resizable_table.h:contains", "gbbs/helpers/resizable_table.h:iter_kv", "gbbs/helpers/resizable_table.h:num_appearances"]}
{"id": "C83", "title": "StronglyConnectedComponents returns the strongly connected components", "statement": "StronglyConnectedComponents(G, beta) returns for every directed graph with at least one vertex, and gives two vertices the same label exactly if each can be reached from the other; the labels are less than n.", "quantifier": "every directed graph, every permutation of the vertices, every beta, every hash function, every traversal of edgeMap and every interleaving of the searches", "why_tests_cant": "Tests compare a few graphs. Labels of earlier rounds, subproblems and racing searches interact, and the table of a search is sized before the round, while labels travel further during it.", "anchors": ["benchmarks/StronglyConnectedComponents/RandomGreedyBGSS16/StronglyConnectedComponents.h:StronglyConnectedComponents", "benchmarks/StronglyConnectedComponents/RandomGreedyBGSS16/StronglyConnectedComponents.h:multi_search", "benchmarks/StronglyConnectedComponents/RandomGreedyBGSS16/StronglyConnectedComponents.h:first_search"]}
{"id": "C84", "title": "num_scc counts the strongly connected components", "statement": "num_scc(labels), for the result of StronglyConnectedComponents, is the number of strongly connected components.", "quantifier": "every directed graph with at least one vertex and every result of StronglyConnectedComponents", "why_tests_cant": "That all labels fit the array of n + 1 flags, and that none is the last one (which the exclusive scan does not count), depends on how labels are given out in all runs.", "anchors": ["benchmarks/StronglyConnectedComponents/RandomGreedyBGSS16/StronglyConnectedComponents.h:num_scc"]}
{"id": "C85", "title": "BFS spanning forest returns a spanning forest", "statement": "bfs_sf::SpanningForest(G) returns on a symmetric graph a list of edges of G without cycles (no edge twice, no self-loop) that connects what G connects, after at most n calls of edgeMap.", "quantifier": "every symmetric graph with fewer than 2^32 vertices, every traversal of edgeMap and every interleaving of its compare-and-swaps", "why_tests_cant": "Tests compare sizes of a few forests; a vertex claimed twice, or an edge to a vertex of another search, needs particular races.", "anchors": ["benchmarks/SpanningForest/BFSSF/SpanningForest.h:SpanningForest", "benchmarks/SpanningForest/BFSSF/SpanningForest.h:BFS_SpanningForest", "benchmarks/SpanningForest/common.h:parents_to_edges"]}
{"id": "C86", "title": "Deterministic BFS spanning forest is a spanning forest and deterministic", "statement": "bfs_sf::SpanningForestDet(G) returns on a symmetric graph a spanning forest as in C85, and any two runs return the same list.", "quantifier": "every symmetric graph with fewer than 2^32 vertices, every pair of runs with any traversals of edgeMap and any interleavings", "why_tests_cant": "Determinism is a statement about all pairs of schedules; tests see a few schedules of one machine.", "anchors": ["benchmarks/SpanningForest/BFSSF/SpanningForest.h:SpanningForestDet", "benchmarks/SpanningForest/BFSSF/SpanningForest.h:BFS_SpanningForest_Det"]}
{"id": "C87", "title": "Shiloach-Vishkin spanning forest returns a spanning forest", "statement": "shiloachvishkin_sf::SpanningForest(G) returns on a symmetric graph a spanning forest as in C85 after at most n + 1 rounds; the same holds for compute_spanning_forest started from a sample with labels and edges of the graph that connect every vertex with its label.", "quantifier": "every symmetric graph, every distribution of the edges over threads, every interleaving, every sample and every choice of the frequent component", "why_tests_cant": "The edge recorded at a root is chosen by a second pass over the edges racing on one slot; that it belongs to the hook that won is an argument about all schedules.", "anchors": ["benchmarks/SpanningForest/ShiloachVishkin/SpanningForest.h:SpanningForest", "benchmarks/SpanningForest/ShiloachVishkin/SpanningForest.h:compute_spanning_forest"]}
{"id": "C88", "title": "Label propagation spanning forest returns a spanning forest", "statement": "labelprop_sf::SpanningForest(G) returns on a symmetric graph a spanning forest as in C85 after at most n*n + 1 rounds, with or without the random permutation; compute_spanning_forest started from a sample with labels and edges connecting each class also labels the connected components.", "quantifier": "every symmetric graph with fewer than 2^32 vertices, every permutation, every traversal of both edgeMaps, every interleaving, every sample and every choice of the frequent component", "why_tests_cant": "The edge recorded at a vertex in the second traversal must match the label that won the first; later rounds overwrite it. That no cycle arises is an invariant over rounds and schedules.", "anchors": ["benchmarks/SpanningForest/LabelPropagation/SpanningForest.h:SpanningForest", "benchmarks/SpanningForest/LabelPropagation/SpanningForest.h:compute_spanning_forest"]}
{"id": "C89", "title": "Liu-Tarjan connectivity labels the connected components", "statement": "LiuTarjanAlgorithm::compute_components with any connect, update and shortcut option, started from the identity or from a sample of ConnectIt, gives on a symmetric graph two vertices the same parent if and only if they are connected, after at most n*n + 1 rounds.", "quantifier": "every symmetric graph with fewer than 2^32 vertices, every option, every distribution of edges over threads, every interleaving of the message writes and of the shortcuts, every sample, every frequent label", "why_tests_cant": "Whether the loop may stop when no message was written depends on the depth of the trees, which depends on the order in which concurrent shortcuts run; a test sees few orders.", "anchors": ["benchmarks/Connectivity/LiuTarjan/Connectivity.h:LiuTarjanAlgorithm", "benchmarks/Connectivity/LiuTarjan/liu_tarjan_rules.h:parent_connect", "benchmarks/Connectivity/LiuTarjan/liu_tarjan_rules.h:extended_connect", "benchmarks/Connectivity/LiuTarjan/liu_tarjan_rules.h:root_shortcut"]}
{"id": "C90", "title": "Liu-Tarjan on an edge list labels the connected components", "statement": "LiuTarjanAlgorithmCOO::compute_components with alter gives two vertices the same parent if and only if the edges of the list connect them, from the identity or from a sample, after at most n*n + 1 rounds.", "quantifier": "every list of edges, every option, every distribution over threads, every interleaving, every sample and every frequent label", "why_tests_cant": "Edges are replaced by the parents of their endpoints in each round; that no connection is lost depends on the trees being flat, which depends on the schedule of the shortcuts.", "anchors": ["benchmarks/Connectivity/LiuTarjan/Connectivity.h:LiuTarjanAlgorithmCOO"]}
{"id": "C91", "title": "Liu-Tarjan spanning forest returns a spanning forest", "statement": "The Liu-Tarjan spanning forest algorithm (compute_spanning_forest followed by the filter) returns on a symmetric graph a spanning forest as in C85, from the identity or from a sample with labels and edges that connect every vertex with its label.", "quantifier": "every symmetric graph with fewer than 2^32 vertices, both connect options, both shortcut options, every distribution of the edges over threads, every interleaving, every sample and every frequent label", "why_tests_cant": "The edge recorded for a root travels in the message that wins a race; that it joins exactly the two trees being merged is an argument about all schedules.", "anchors": ["benchmarks/SpanningForest/LiuTarjan/SpanningForest.h:compute_spanning_forest", "benchmarks/SpanningForest/LiuTarjan/SpanningForest.cc:SF_runner", "benchmarks/SpanningForest/LiuTarjan/liu_tarjan_rules.h:root_update"]}
{"id": "C92", "title": "The connectivity checker accepts exactly the correct labellings", "statement": "cc_check accepts a labelling iff it describes the same partition of the vertices as the reference labelling, without undefined behaviour.", "quantifier": "every two labellings", "why_tests_cant": "The checker is what the tests rely on; it is only run on labellings that are correct.", "anchors": ["benchmarks/Connectivity/ConnectIt/mains/check.h:35-79", "benchmarks/SpanningForest/check.h:26-75"]}
{"id": "C93", "title": "The spanning forest framework returns a spanning forest", "statement": "SamplingAlgorithmTemplate::spanning_forest and NoSamplingAlgorithmTemplate::spanning_forest return the edges of a spanning forest of the graph.", "quantifier": "every symmetric graph, sampling and interleaving", "why_tests_cant": "The checker filters nothing and only looks at connectivity, so surplus entries go unnoticed.", "anchors": ["benchmarks/SpanningForest/Framework/sampling.h:24-66"]}
{"id": "C94", "title": "BFS sampling records edges of the graph", "statement": "The edges that BFS_ComponentLabel of the spanning forest framework records are edges of the graph and form a forest that connects exactly the vertices with the same label.", "quantifier": "every symmetric graph, source and interleaving", "why_tests_cant": "A star of non-edges has the right number of edges and connects the right vertices; only a check against the adjacency lists tells it from a forest of the graph.", "anchors": ["benchmarks/SpanningForest/Framework/bfs_sampling.h:4-60"]}
{"id": "C95", "title": "Union-find connectivity is correct after any sampling", "statement": "From any sample (every vertex points to a centre of its component), the calls of unite for the edges of the vertices outside of the frequent component, followed by the final find of every vertex, leave labels that are equal exactly for connected vertices.", "quantifier": "every symmetric graph, sample, frequent component, rule of linking and find, and interleaving of the calls", "why_tests_cant": "The tests run each variant on one schedule and mostly without sampling; skipping the edges of the frequent component and starting from centres that are not minimal is only justified by a global invariant.", "anchors": ["benchmarks/Connectivity/UnionFind/Connectivity.h:46-110", "benchmarks/Connectivity/ConnectIt/framework.h"]}
{"id": "C96", "title": "Union-find spanning forests are correct after any sampling", "statement": "From any sample with a recorded forest of its clusters, the edges recorded by the calls of unite together with those of the sample (without the empty entries) are a spanning forest of the graph.", "quantifier": "every symmetric graph, sample, frequent component, rule of linking and find, and interleaving of the calls", "why_tests_cant": "An edge that is lost or recorded twice under a race does not show in the labels, and depends on the schedule.", "anchors": ["benchmarks/SpanningForest/UnionFind/SpanningForest.h:48-112", "benchmarks/SpanningForest/UnionFind/union_find_rules.h:40-240"]}
{"id": "C97", "title": "The work-efficient spanning forest is a spanning forest", "statement": "SpanningForest(G) of SDB14 returns edges of the graph that form a forest connecting every two connected vertices.", "quantifier": "every symmetric graph, sequence of shifts, permutation, hash function, and interleaving of the decomposition, relabelling and contraction of every level", "why_tests_cant": "The edges of deeper levels are found again through concurrent hash tables that map an edge of a contracted graph to whichever original edge was inserted first; the code has no test, and a checker that only compares the number of components would not notice extra entries.", "anchors": ["benchmarks/SpanningForest/SDB14/SpanningForest.h:61-195", "benchmarks/SpanningForest/SDB14/contract_sf.h:47-244"]}
{"id": "C98", "title": "LDD and k-out sampling provide a spanning forest of their clusters", "statement": "After LDD sampling or k-out sampling, every vertex points to a vertex of its component which points to itself, and the recorded edges are edges of the graph, at most one for each vertex that does not point to itself, which connect every vertex with the vertex it points to; so that a finish algorithm completes them to a spanning forest.", "quantifier": "every symmetric graph, sequence of shifts, number of rounds, choice of neighbours, and interleaving", "why_tests_cant": "The labels and the edges are two arrays that are written at different times by racing threads; that the edge recorded for a vertex belongs to the thread that won its label depends on the schedule.", "anchors": ["benchmarks/SpanningForest/Framework/ldd_sampling.h:7-106", "benchmarks/SpanningForest/Framework/kout_sampling.h:18-92"]}
{"id": "C99", "title": "Parallel peeling approximates the densest subgraph", "statement": "WorkEfficientDensestSubgraph(G, epsilon) returns; half of the value is the density of a set of vertices, and no set of vertices is denser than (1 + epsilon) times the value.", "quantifier": "every symmetric graph, epsilon >= 0, choice between the dense and sparse counting of neighbours, and order of the histogram", "why_tests_cant": "The guarantee compares with the densest of exponentially many sets; that the degrees stay exact depends on which of two counting procedures runs in each round.", "anchors": ["benchmarks/ApproximateDensestSubgraph/ApproxPeelingBKV12/DensestSubgraph.h:26-163", "gbbs/edge_map_reduce.h:57-209"]}
{"id": "C100", "title": "Connectivity by concurrent unions labels vertices with the least vertex of their component", "statement": "SimpleUnionAsync(G) and CC_predicate(G, pred) return the same label for two vertices iff they are connected (by arcs that satisfy pred), and the label is the least vertex of the component; num_cc and largest_cc return the number of components and the size of the greatest one.", "quantifier": "every graph, predicate, number of threads, and interleaving of all memory accesses of the unions and of the final compressions", "why_tests_cant": "Races between hooks and path compression, and the final pass whose return value is dropped so that correctness rests on its side effect.", "anchors": ["benchmarks/Connectivity/SimpleUnionAsync/Connectivity.h:30-183"]}
{"id": "C101", "title": "The spanner preserves distances up to a bounded factor", "statement": "Spanner(G, beta) returns edges of the graph; between the ends of every edge of the graph there is a walk of at most 4 (r - 1) + 1 returned edges, where r bounds the number of rounds of the decomposition; the number of edges is the number of vertices that are not centres plus the number of adjacent pairs of clusters.", "quantifier": "every symmetric graph, sequence of shifts, permutation, hash function, and interleaving", "why_tests_cant": "The clusters and the representative edge of each pair of clusters are decided by races; the stretch is a statement about all pairs of vertices and all schedules.", "anchors": ["benchmarks/Spanner/MPXV15/Spanner.h:29-295"]}
{"id": "C102", "title": "The approximate set cover covers every element and is not much larger than any other cover", "statement": "If SetCover(G) returns, every vertex that is a neighbour of some vertex is a neighbour of a vertex of the result; the result has no duplicates; and for every family C that covers the elements it has at most the sum over C of 1.0201 H(degree) + 0.0198 degree sets.", "quantifier": "every graph (symmetric or not), number of buckets, choice of priorities in every round, and interleaving of the two traversals of a round", "why_tests_cant": "The sets race for their elements in every round with random priorities, and the quality is a comparison with all other covers.", "anchors": ["benchmarks/ApproximateSetCover/MANISBPT11/ApproximateSetCover.h:32-210", "gbbs/bucket.h:85-370", "gbbs/bridge.h:300-308"]}
{"id": "C103", "title": "Local queries answer for one and the same maximal independent set or matching", "statement": "mis_query and mm_query always return. Every vertex (edge) answered in belongs to the set (matching) that takes the vertices (edges) one after the other in the order of the priorities, every one answered out does not, and a query is left unanswered only when its work has reached the cut-off. If no query reached the cut-off and the graph has no self-loops, the answers form a maximal independent set (maximal matching), the checks at the end pass and the reported fraction is 1.", "quantifier": "every symmetric graph without weights, hash function (collisions included) and cut-off", "why_tests_cant": "Each query is a recursive exploration of its own; that all of them agree on one set, for every hash function, is not visible in any sample of runs.", "anchors": ["benchmarks/MaximalIndependentSet/Yoshida/MaximalIndependentSet.h:29-137", "benchmarks/MaximalMatching/Yoshida/MaximalMatching.h:32-151", "benchmarks/MaximalMatching/Yoshida/yoshida_matching_utils.h:20-90", "benchmarks/MaximalIndependentSet/Yoshida/reorder.h:7-59"]}
{"id": "C104", "title": "Clique counting counts the k-cliques, in total, per vertex, and lists each once", "statement": "Clique returns the number of sets of k pairwise adjacent vertices; with per-vertex counting every vertex gets the number of those that contain it; Clique_enum calls its function exactly once per clique, with the k different vertices of it. This holds for every ordering, both ways of directing the graph, both intersection methods and every recursion level.", "quantifier": "every symmetric graph without parallel edges, ordering, k, and distribution of the iterations to workers", "why_tests_cant": "The recursion reuses one labelled array per worker for all vertices and levels; that labels are restored on every path, for every distribution of the work and depth, is an invariant, and failures appear only with reuse across calls, deep levels or option combinations that no test enumerates.", "anchors": ["benchmarks/CliqueCounting/Clique.h:51-190", "benchmarks/CliqueCounting/induced_hybrid.h:20-291", "benchmarks/CliqueCounting/intersect.h:15-408", "gbbs/bridge.h:81-93"]}
{"id": "C105", "title": "Biconnectivity labels two edges alike exactly if they are in the same biconnected component", "statement": "From the two arrays of Biconnectivity (parents with the top bit used as a mark, and labels) give every edge the label of the end whose parent is the other end, or of its second end if neither is. Two edges that are not self-loops have the same label if and only if no vertex separates them.", "quantifier": "every symmetric graph with at most 2^31 vertices (connected or not), every breadth-first forest, every interleaving of the union-finds, the traversals and the min/max updates", "why_tests_cant": "The algorithm chains union-find, a breadth-first forest, two bottom-up passes with counters, preorder numbers and a second union-find; that the test on preorder intervals finds the blocks is the theorem of Tarjan and Vishkin and needs a forest of shortest paths, which no set of example graphs establishes, and races in the counters show only in some schedules.", "anchors": ["benchmarks/Biconnectivity/TarjanVishkin/Biconnectivity.h:33-546", "benchmarks/Connectivity/SimpleUnionAsync/Connectivity.h:32-152"]}
{"id": "C106", "title": "Boruvka's MinimumSpanningForest returns a minimum spanning forest", "statement": "MinimumSpanningForest_boruvka::MinimumSpanningForest returns edges of the graph that form a forest, connect what the graph connects, and have the least total weight of all such forests. It has fewer than n edges, and every choice of the sampled splitters leads to at most six filtering rounds.", "quantifier": "every symmetric weighted graph without self-loops whose weights fit into int32_t and that has at most 2^31 arcs; every outcome of the sampling and hashing in get_top_k; every order of the write_mins and every interleaving of the pointer jumping", "why_tests_cant": "The batches of light edges, the ties between equal weights, the vertices that run out of edges in one batch and return in the next, and the races of the pointer jumping depend on weights, hashes and schedules; a test sees a total weight on a few graphs.", "anchors": ["benchmarks/MinimumSpanningForest/Boruvka/MinimumSpanningForest.h:34-460", "gbbs/graph_mutation.h:187-325"]}
{"id": "C107", "title": "Queries on the SCAN index return SCAN clusterings", "statement": "indexed_scan::Index::Cluster(mu, epsilon) returns a SCAN clustering: two cores have the same cluster exactly if they are connected through cores that are similar neighbours, a cluster is named after its least core, a vertex that is not a core gets the cluster of a similar neighbouring core if there is one, and every other vertex is kUnclustered. With get_deterministic_result the core is the most similar one (the least among equals), so that all runs return the same. The overload for many epsilons calls f once per index, with such a clustering for the epsilon at this index.", "quantifier": "every symmetric graph with any symmetric similarities; every mu and epsilon (with get_deterministic_result: positive similarities); every list of epsilons; every order left open by the unstable sorts; every interleaving of the concurrent unions and of the compare-and-swaps that attach vertices", "why_tests_cant": "The clusters come from racing unions on an array that also holds the entries of vertices that are not cores, border vertices are fought over by compare-and-swap, and the query for many epsilons reuses the labels of the last one; tests run one schedule on small graphs.", "anchors": ["benchmarks/SCAN/IndexBased/scan.cc:20-301", "benchmarks/SCAN/IndexBased/scan_helpers.h:60-110", "benchmarks/SCAN/IndexBased/scan_helpers.cc:20-145"]}
{"id": "C108", "title": "The similarities of the SCAN measures are those of the neighbourhoods", "statement": "CosineSimilarity and JaccardSimilarity::AllEdges return one entry for each arc of the graph, with the similarity of its end points: |C(u) \u2229 C(v)| / |C(u) \u222a C(v)| for Jaccard, and |C(u) \u2229 C(v)| with |C(u)| and |C(v)| for cosine, where C is the closed neighbourhood. The counters that all intersections update at the same time lose no update, so the index of C107 built from them is the index of the graph with these similarities. In the approximate measures the same holds for every edge with an end point of low degree.", "quantifier": "every symmetric graph without self-loops with fewer than 2^32 vertices, sorted neighbour lists; every ranking of the vertices; every threshold for high degrees; every interleaving of the updates; every split of the parallel intersections", "why_tests_cant": "A triangle is found once and must be counted on its three edges, by updates from concurrent intersections at indices that the splits shift; a lost or misplaced update changes a similarity slightly, and tests compare floats on a few small graphs.", "anchors": ["benchmarks/SCAN/IndexBased/similarity_measure.h:236-345", "benchmarks/SCAN/IndexBased/similarity_measure.h:666-775", "benchmarks/SCAN/IndexBased/intersect.h:20-168"]}
{"id": "C109", "title": "ApproxJaccardSimilarity returns the one-permutation MinHash estimate", "statement": "For an edge between vertices of high degree, ApproxJaccardSimilarity::AllEdges divides the number of buckets whose least permuted element of C(u) \u222a C(v) lies in C(u) \u2229 C(v) by the number of buckets that C(u) \u222a C(v) meets. The denominator is never 0, the estimate is at most 1 and it is 1 if C(u) = C(v). With a fixed seed it does not depend on the schedule.", "quantifier": "every symmetric graph; every permutation; every number of samples such that the fingerprints fit into 2^32 entries; every threshold; every order of the concurrent write_min", "why_tests_cant": "The estimate is random, so tests accept a range of values; a fingerprint stored at the wrong place or lost in a race still gives a value in this range.", "anchors": ["benchmarks/SCAN/IndexBased/similarity_measure.h:583-665", "benchmarks/SCAN/IndexBased/similarity_measure.h:730-751"]}
{"id": "C110", "title": "Hubs, outliers and modularity of SCAN clusterings", "statement": "DetermineUnclusteredType returns kHub exactly if the vertex has neighbours in two different clusters. CollectReduce returns the sum of the values of each key. Modularity returns Newman's modularity of the partition in which every unclustered vertex is a block of its own, and it is at most 1.", "quantifier": "every clustering and every graph (modularity: no self-loop at an unclustered vertex, total weight not 0); every interleaving of the concurrent checks of the neighbours; every order left open by the unstable sort", "why_tests_cant": "The checks race on two unprotected variables that decide the answer, and the modularity adds up slices of an array sorted by cluster; tests use a few small clusterings.", "anchors": ["benchmarks/SCAN/IndexBased/utils.h:60-316"]}
{"id": "C111", "title": "The simple SCAN returns all cluster memberships and agrees with the index", "statement": "naive_scan::Cluster gives every core exactly the cluster named after the least core linked to it through similar cores, and every other vertex exactly the clusters of the cores that are its similar neighbours, in ascending order without repetition. The clusterings allowed for the index-based SCAN (C107) are exactly those that pick one of these clusters for every vertex. Every search ends, and the last loop never reads from an empty list of clusters.", "quantifier": "every symmetric graph without self-loops and with sorted lists, every mu and epsilon, every rounding of the similarities, every order of the insertions into the table, every schedule and traversal of edgeMap (frontiers may list a vertex several times)", "why_tests_cant": "The simple SCAN is the reference in tests of the index, so a test can only compare the two; the searches depend on schedules of edgeMap and on the shape of the whole graph.", "anchors": ["benchmarks/SCAN/Naive/scan.h:30-108", "benchmarks/SCAN/Naive/scan_helpers.h:46-122", "benchmarks/SCAN/Naive/scan_helpers.cc:10-54"]}
{"id": "C112", "title": "All five-cycle counters return the number of five-cycles", "statement": "Count5Cycle, Count5Cycle_serial, Count5Cycle_no_scheduling, Count5Cycle_experiment, Count5Cycle_ESCAPE and Count5Cycle_ESCAPE_par return the number of cycles of length five of the graph (modulo 2^64). They read and write only inside of their arrays, leave the memory of the workers zeroed, and the blocks of the parallel versions contain every vertex exactly once.", "quantifier": "every symmetric graph without self-loops and parallel edges with fewer than 2^32 vertices and edge slots, every relabelling order, every rank in which adjacent vertices differ, every distribution of blocks to workers", "why_tests_cant": "Tests compare a few small graphs; that each cycle is counted exactly once out of ten representations, that the subtractions in unsigned arithmetic never wrap, and that the incremental table returns to zero depend on all overlaps of paths in the graph.", "anchors": ["benchmarks/CycleCounting/Parallel5Cycle/FiveCycle.h:68-126", "benchmarks/CycleCounting/Parallel5Cycle/FiveCycle.h:135-198", "benchmarks/CycleCounting/Parallel5Cycle/FiveCycle.h:284-705", "benchmarks/CycleCounting/Parallel5Cycle/FiveCycle.h:716-1098", "gbbs/bridge.h:81-93"]}
{"id": "C113", "title": "Randomised linking by rank (Jayanti-Tarjan) computes components and spanning forests", "statement": "With jayanti_rank::unite and either find, concurrent calls followed by the loop of finds give two vertices the same label exactly if the calls connect them; compute_components (with and without sampling) labels the components of the graph; compute_spanning_forest records the edges of a spanning forest; ranks never grow into the bit that marks roots.", "quantifier": "every graph with fewer than 2^31 vertices, every sample, all random bits, every interleaving of the single accesses (rank and parent are read separately, CAS covers both)", "why_tests_cant": "A run exercises a few of the interleavings and random bits. Links decided on ranks that were read earlier, parents rewritten while a rank is raised, and records of two fields read at different times could produce a cycle or a double link only under rare schedules.", "anchors": ["benchmarks/Connectivity/UnionFind/jayanti.h:13-141", "benchmarks/Connectivity/UnionFind/jayanti.h:148-243", "benchmarks/SpanningForest/UnionFind/jayanti.h:13-232", "benchmarks/Connectivity/ConnectIt/framework.h:87-97"]}
{"id": "C114", "title": "CoSimRank_edgeMap prints the CoSimRank similarity", "statement": "The value printed by CoSimRank_edgeMap(G, v, u, eps, c, max_iters) is the CoSimRank similarity of u and v, the series of c^k times the inner product of the distributions of the k-step walks from u and v, cut off after max_iters terms or when later terms do not matter; the printed maxima are those of the distributions.", "quantifier": "all graphs, directed or not, all vertices, decays, tolerances and iteration counts, every interleaving of the traversals", "why_tests_cant": "The right value of an infinite series is not available to a test, and an error in which terms are cut off is small enough on small samples to pass as rounding; the frontier restricts each step to some vertices, which is right only if no mass lies elsewhere.", "anchors": ["benchmarks/CoSimRank/CoSimRank.h:9-35", "benchmarks/CoSimRank/CoSimRank.h:37-108", "gbbs/edge_map_data.h:136-191"]}
{"id": "C115", "title": "CoSimRank prints what CoSimRank_edgeMap prints", "statement": "CoSimRank (by edgeMapReduce_dense) prints the same similarity and maxima as CoSimRank_edgeMap for the same arguments.", "quantifier": "all graphs accepted by the runner (directed ones included), all vertices and parameters", "why_tests_cant": "Tests compare the two on a few, usually symmetric graphs; on these in- and out-neighbours coincide.", "anchors": ["benchmarks/CoSimRank/CoSimRank.h:110-219", "benchmarks/CoSimRank/CoSimRank.cc:57-64", "gbbs/edge_map_reduce.h:325-384"]}
{"id": "C116", "title": "Counting sort delivers every bucket, stably", "statement": "After _count_sort(A, get_key, n, num_buckets) the elements its callers read for bucket i through the returned counts are exactly the elements of A with key i, in their original order.", "quantifier": "all inputs and keys below num_buckets, all bucket counts the bucket type can hold, any order in which the blocks are processed, any computed square root, any previous contents of the uninitialised arrays", "why_tests_cant": "The code runs blocks in parallel, writes counts back in place during the backward pass, and chooses the number of blocks by a floating-point square root; a fault shows only for particular sizes or block boundaries.", "anchors": ["gbbs/helpers/counting_sort_no_transpose.h:36-109", "gbbs/helpers/histogram.h:183-218"]}
{"id": "C117", "title": "histogram counts every key exactly", "statement": "histogram(get_key, n, apply_f, ht) calls apply_f once on every key that occurs, except the reserved one, with the number of its occurrences, returns exactly the results, and leaves the table empty.", "quantifier": "all key sequences with less than 2^30 keys, all hash functions, number of workers, order of the parallel loops, computed square roots and contents of uninitialised arrays", "why_tests_cant": "The result depends on the sampling of heavy keys, on the sizes of the buckets and on table sizes computed in single precision; the case of more than 5000000 keys is not reached by tests at all.", "anchors": ["gbbs/helpers/histogram.h:39-127", "gbbs/helpers/histogram.h:129-153", "gbbs/helpers/histogram.h:155-301", "gbbs/helpers/histogram.h:303-562", "gbbs/helpers/sequential_ht.h:40-150"]}
{"id": "C118", "title": "histogram_reduce combines the elements of every key in order", "statement": "histogram_reduce(get_elm, get_key, n, reduce_f, apply_f, ht) calls apply_f once on every key that occurs, with its elements combined by reduce_f in their original order starting from the empty value, returns exactly the results and leaves the table empty.", "quantifier": "all element sequences with less than 2^30 elements and no reserved key, all (also non-commutative) reduce functions, hash functions, worker counts, loop orders and contents of uninitialised arrays", "why_tests_cant": "Tests use commutative operations and few elements; that the order is kept, and that the table is clean for the next call, shows only with other operations and after many calls.", "anchors": ["gbbs/helpers/histogram.h:564-584", "gbbs/helpers/histogram.h:586-737"]}
{"id": "C119", "title": "edgeMapCount counts the edges that reach a vertex", "statement": "edgeMapCount, in whichever of its forms runs, calls apply_f once on every vertex that satisfies the condition and is reached from the frontier, with the number of edges reaching it, and returns a subset of the vertices of the graph with exactly the results.", "quantifier": "all graphs, frontiers, conditions, apply functions, flags and thresholds, orders of the parallel loops and contents of uninitialised arrays", "why_tests_cant": "Which form runs depends on degrees and flags, and uninitialised memory is mostly zero in tests.", "anchors": ["gbbs/edge_map_reduce.h:34-96", "gbbs/edge_map_reduce.h:98-127", "gbbs/edge_map_reduce.h:129-190", "gbbs/edge_map_reduce.h:192-223", "gbbs/edge_map_reduce.h:424-530"]}
{"id": "C120", "title": "edgeMapReduce_sparse reduces over the edges from the frontier", "statement": "EdgeMap::edgeMapReduce_sparse(vs, map_f, reduce_f, apply_f, id, fl) calls apply_f once on every vertex reached from vs, with the values of map_f on the edges reaching it combined by reduce_f from id on, and returns exactly the results.", "quantifier": "all graphs, frontiers, maps, reductions and apply functions", "why_tests_cant": "The combination order and the role of the identity are visible only with non-commutative reductions or other initial values.", "anchors": ["gbbs/edge_map_reduce.h:283-320"]}
{"id": "C121", "title": "A round of clique peeling subtracts exactly the destroyed cliques", "statement": "When triUpdate, triUpdate_serial, cliqueUpdate or cliqueUpdate_serial have processed the active vertices, the aggregated count of every remaining vertex is the number of (k+1)-cliques of remaining vertices through it that contain an active vertex, every vertex with such a clique is reported as changed, and no access is out of bounds.", "quantifier": "all undirected graphs with sorted lists, all vertex orders, all sets of removed and active vertices, 2 <= k <= 128, both intersection modes, any number of workers and any distribution of the active vertices to them", "why_tests_cant": "A clique with several active vertices must be counted once although every one of them is processed by some worker at the same time; whether it is depends on the order, on the set of active vertices and on the schedule.", "anchors": ["benchmarks/CliqueCounting/peel.h:18-111", "benchmarks/CliqueCounting/peel.h:113-194", "benchmarks/CliqueCounting/peel.h:196-360", "benchmarks/CliqueCounting/intersect.h:84-238"]}
{"id": "C122", "title": "Peel returns the clique core number of every vertex", "statement": "Peel(G, DG, k, cliques, label, rank, num_buckets) returns for every vertex the largest j for which it belongs to a set of vertices that are each in at least j (k+1)-cliques of the set.", "quantifier": "all undirected graphs with sorted lists, vertex orders, 2 <= k <= 128, numbers of buckets and workers, distributions of the work", "why_tests_cant": "The result depends on all rounds; a count off by one in a single round or an entry missing in a bucket appears only on particular graphs, and the tests have only a few small ones.", "anchors": ["benchmarks/CliqueCounting/peel.h:361-503", "benchmarks/CliqueCounting/Clique.h:231-242"]}
{"id": "C123", "title": "ApproxPeel approximates the largest clique density", "statement": "ApproxPeel(G, DG, k, cliques, num_cliques, label, rank, eps) returns the density (number of (k+1)-cliques per vertex) of some set of vertices, and no set is more than (k+1)(1+eps) times as dense.", "quantifier": "all undirected graphs with sorted lists, vertex orders, 2 <= k <= 128, eps >= 0, numbers of workers, distributions of the work", "why_tests_cant": "The guarantee compares with the best of exponentially many sets, and the value is only printed.", "anchors": ["benchmarks/CliqueCounting/peel.h:505-631"]}
{"id": "C124", "title": "A graph compressed by compressor is loaded back unchanged", "statement": "The file written by utils/compressor for a graph, read by the -c loaders (read_compressed_symmetric_graph, read_compressed_asymmetric_graph), shows the same number of vertices and arcs, the same degrees, and the same neighbours and weights, in order, in every traversal; for directed graphs in both directions.", "quantifier": "all symmetric and directed graphs with sorted lists, fewer than 2^32 vertices, weights that are empty or any int, every order in which the parallel loops run, every content of the memory outside of the file and of uninitialised buffers", "why_tests_cant": "Sizes are computed by one pass and bytes are written by another one, in parallel, to addresses that depend on all previous sizes; one vertex for which the two disagree corrupts the lists of others, and only for particular gaps, degrees around a multiple of the block size and weights.", "anchors": ["utils/compressor.cc:17-164", "utils/compressor.cc:167-428", "gbbs/graph_io.h:219-322", "gbbs/encodings/byte_pd_amortized.h"]}
{"id": "C125", "title": "A graph converted by converter can be loaded", "statement": "For each encoding of utils/converter (-enc byte, bytepd-amortized, degree) the file is loaded by the -c loader as the graph that was converted.", "quantifier": "all symmetric and directed graphs with sorted lists, block sizes, numbers of vertices, orders of the parallel loops", "why_tests_cant": "The number of batches is a function of the number of vertices and the block size matters only above some degree; every test graph is on one side of these limits.", "anchors": ["utils/converter.h:503-668", "utils/converter.h:680-775", "utils/converter.h:1115-1160", "gbbs/graph_io.h:219-259"]}
{"id": "C126", "title": "The binary format is loaded back unchanged", "statement": "The file written by converter -enc binary (write_graph_binary_format), read with -b (read_unweighted_symmetric_graph and the others with binary = true), shows the same degrees and the same neighbours and weights in order; for directed graphs in both directions.", "quantifier": "all graphs with 32-bit vertices and fewer than 2^64 arcs, any number of batches, every order in which the parallel loops run", "why_tests_cant": "The arrays are addressed by offsets that depend on all previous degrees, are written batch by batch, and the reader computes the place of the second half from m alone.", "anchors": ["utils/converter.h:900-1083", "gbbs/graph_io.h", "README.md"]}
{"id": "C127", "title": "converter -enc edgearray writes exactly the arcs", "statement": "The file written by edgearray has one line u v, or u v w, for every arc, in the order of the adjacency lists, and nothing else; read by read_unweighted_edge_list or read_weighted_edge_list it is the list of arcs.", "quantifier": "all graphs with 32-bit vertices whose m is the number of arcs, weights none, int32 or floating point, every order of the parallel loops, any number of chunks of 10^6 arcs", "why_tests_cant": "The characters are written in parallel into slots of fixed width in one array; whether a text fits depends on the value, and a text one character too long damages the neighbouring line only in some schedules.", "anchors": ["utils/converter.h:1085-1114", "utils/to_char_arr.h"]}
{"id": "C128", "title": "to_edge_list writes exactly the edges", "statement": "to_edge_list writes one line u v per arc; with -direct_sym one per edge with u < v; with -matrixmarket_format the header and one line u v 1 per edge.", "quantifier": "all graphs with 32-bit vertices, all options, every order of the parallel loops", "why_tests_cant": "The tool has no tests; the number of superfluous lines depends on the graph.", "anchors": ["utils/to_edge_list.cc", "gbbs/bridge.h:646-721"]}
{"id": "C129", "title": "random_reorder writes an isomorphic graph with sorted lists", "statement": "The file written by random_reorder is loaded as the input graph with vertices renamed by a permutation, and every adjacency list is sorted, as the algorithms that intersect lists require.", "quantifier": "all graphs, permutations, orders of the parallel loops", "why_tests_cant": "The permutation is random; a test with a few seeds on small lists can find sorted lists by chance.", "anchors": ["utils/random_reorder.cc:9-50", "gbbs/bridge.h:704-721", "gbbs/graph_io.cc:parse_unweighted_graph"]}
{"id": "C130", "title": "Edge-list files are read exactly", "statement": "read_unweighted_edge_list and read_weighted_edge_list<int32_t> return exactly the edges of the file, in order, without the comments at its top.", "quantifier": "all files with any number of comment and empty lines at the top, any white space between numbers, vertices below 2^32 and 32-bit weights", "why_tests_cant": "Unbounded files, digit counts, kinds of white space and signs.", "anchors": ["gbbs/graph_io.cc:12-28", "gbbs/graph_io.cc:254-269", "gbbs/graph_io.h:332-349"]}
{"id": "C131", "title": "edge_list_to_asymmetric_graph builds both directions of the graph", "statement": "The out-neighbours of u are exactly the v different from u for which (u, v) is in the list, the in-neighbours exactly those for which (v, u) is, each list is strictly increasing, every weight comes from a list entry for that arc and is the same in both directions, and the degrees sum to m.", "quantifier": "all lists of edges with loops and duplicates, every result of the unstable sorts, every order of the parallel writes", "why_tests_cant": "The offsets of vertices without edges are filled by their neighbours in parallel; unstable sorts may keep any duplicate.", "anchors": ["gbbs/graph_io.h:361-418", "gbbs/graph_io.h:558-613", "gbbs/graph_io.h:690-720"]}
{"id": "C132", "title": "snap_converter preserves the graph", "statement": "The adjacency file that snap_converter writes for an edge-list file, when loaded, has sorted adjacency lists in which v is a neighbour of u exactly if they differ and some line of the input is u v (or v u with -s).", "quantifier": "all edge-list files without weights with vertices below 2^32, every order of the parallel loops and result of the sorts", "why_tests_cant": "Composition of reading, symmetrising, deduplication, writing and parsing over unbounded inputs.", "anchors": ["utils/snap_converter.cc", "gbbs/graph_io.h:361-547", "gbbs/graph_io.cc"]}
{"id": "C133", "title": "Iterators over compressed lists yield exactly the neighbours", "statement": "get_iter() on a bytepd_amortized list yields the remaining neighbours one after the other with their weights, and has_next is true exactly while there is another one, also after any number of packs; a filter_iter over it yields exactly the accepted ones, so that byte::sequentialCompressEdgeSet through it encodes the filtered list.", "quantifier": "all lists up to 3*10^8 entries, all weights, all histories of pack calls with any predicates and schedules (including repacking), all predicates", "why_tests_cant": "Blocks emptied by packing must be skipped both at the start and in the middle; which blocks are empty depends on the history.", "anchors": ["gbbs/encodings/byte_pd_amortized.h:172-265", "gbbs/bridge.h:384-409", "gbbs/encodings/byte.h:280-299", "gbbs/graph_mutation.h:124-142"]}
{"id": "C134", "title": "Intersection of bytepd_amortized lists reports the common neighbours", "statement": "intersect and intersect_f of two bytepd_amortized lists report exactly the neighbours in both, also after packing.", "quantifier": "all lists, any number of blocks, histories of packs", "why_tests_cant": "The iterator skips a block header every 1000 entries; whether the positions are right depends on the number of blocks and on the packing history.", "anchors": ["gbbs/encodings/byte_pd_amortized.h:267-312", "gbbs/encodings/byte_pd_amortized.h:563-603"]}
{"id": "C135", "title": "RMAT generator returns edges of the recursive model on n vertices", "statement": "rmat::generate_updates(n, m, seed, a, b, c) returns m edges with endpoints below n, in which every bit of the endpoints is chosen by a pseudo-random number against a, a+b and a+b+c, and different positions draw different numbers.", "quantifier": "all n, m, seeds, probabilities and all results of the hash function", "why_tests_cant": "Endpoints outside the range appear with small probability and only for some n; the period shows after 2^31 edges.", "anchors": ["utils/generators/rmat.h", "utils/generators/RMAT.cc"]}
{"id": "C136", "title": "Barabasi-Albert generator grows a connected graph by preferential attachment", "statement": "barabasi_albert::generate_updates(n, e) returns n*e edges: a path, then e edges from every vertex i >= 1 to the vertices at e different positions of the list of endpoints of earlier edges; all endpoints are below n, the graph is connected and simple.", "quantifier": "all n and e, all pseudo-random numbers, all schedules of the parallel loop", "why_tests_cant": "The targets are resolved through positions of edges that are themselves resolved later; the result depends on the random numbers and the order.", "anchors": ["utils/generators/barabasi_albert.h", "utils/generators/BarabasiAlbert.cc"]}
{"id": "C137", "title": "kth_smallest returns an element of rank k", "statement": "kth_smallest(s, k, less) returns an element of s with at most k smaller and fewer than n-k larger elements, whatever the pivots.", "quantifier": "all sequences, all k, all strict weak orders, all choices of pivots", "why_tests_cant": "The recursion depends on random pivots and on how equal elements are spread.", "anchors": ["gbbs/bridge.h:533-549"]}
{"id": "C138", "title": "Command line options select the file, the reader and the number of rounds", "statement": "On a command line of options (with or without values) in any order and a file, the option functions return what was given, first occurrence first, or the default; main calls the reader asked for on the file and runs the application as often as asked for.", "quantifier": "all lists of options, all values, all files", "why_tests_cant": "The number of combinations of options, orders and spellings is unbounded; wrong readings are silent.", "anchors": ["gbbs/helpers/parse_command_line.h", "gbbs/benchmark.h"]}
{"id": "C139", "title": "Incremental Liu-Tarjan: batches of insertions", "statement": "After a sequence of LiuTarjanAlgorithm::process_batch calls, two vertices have the same root exactly if the inserted edges connect them.", "quantifier": "all connect, update, shortcut and alter options, every sequence of batches, every interleaving", "why_tests_cant": "The failures need several batches in an order that leaves the parent of an unmentioned vertex stale, and differ between the 24 variants.", "anchors": ["benchmarks/Connectivity/LiuTarjan/Connectivity.h:175-324", "benchmarks/Connectivity/LiuTarjan/liu_tarjan_rules.h"]}
{"id": "C140", "title": "Clique counting gives the same count for every space type", "statement": "Clique(GA, k, ...) with -space 2, 3, 5 or 6 returns the number of sets of k pairwise adjacent vertices, and with use_base gives every vertex the number of those sets that contain it.", "quantifier": "all symmetric graphs without parallel edges, all orders of the vertices, all k >= 4, every distribution of the vertices to workers", "why_tests_cant": "Tests use the default space type and small graphs; the failures need a graph without a path of two arcs, an out-degree of at least 10000, or per-vertex counts with -space 3.", "anchors": ["benchmarks/CliqueCounting/induced_split.h:12-69", "benchmarks/CliqueCounting/induced_intersection.h:19-135", "benchmarks/CliqueCounting/induced_neighborhood.h:20-127", "benchmarks/CliqueCounting/intersect.h:457-560", "benchmarks/CliqueCounting/Clique.h:90-156", "gbbs/vertex.h:190-211"]}
{"id": "C141", "title": "Clique counting with colourful sparsification", "statement": "--sparse --colors c reports c^(k-1) times the number of k-cliques whose vertices got one colour, which is the number of k-cliques on average over the colourings, and exactly that number for one colour.", "quantifier": "all symmetric graphs, all colourings, all c >= 1 and k >= 4", "why_tests_cant": "The statement about the mean is over all c^n colourings; a test sees the one colouring of the fixed seed.", "anchors": ["benchmarks/CliqueCounting/relabel.h:216-231", "benchmarks/CliqueCounting/Clique.cc:74-137", "gbbs/graph_mutation.h:181-250"]}
{"id": "C142", "title": "edgeMap visits every edge of a sparse frontier of a compressed graph", "statement": "On a graph in a compressed format (bytepd, bytepd_amortized), also after any packing of its lists, the sparse traversal of edgeMap applies the function to every remaining edge of the frontier exactly once, and returns the vertices that were claimed.", "quantifier": "all graphs, packing histories, frontiers with at least one edge, worker counts, schedules and client functions", "why_tests_cant": "The failing frontiers consist of vertices of degree 0 or exactly 1000; tests use small uncompressed graphs, where no list has 1000 entries.", "anchors": ["gbbs/edge_map_blocked.h:319-456", "gbbs/compressed_vertex.h:213-260", "gbbs/encodings/decoders.h:115-296", "gbbs/encodings/byte_pd.cc:59-73", "gbbs/encodings/byte_pd_amortized.h:642-649", "gbbs/encodings/byte_pd_amortized.cc:57-74", "gbbs/edge_map_data.h:137-188"]}
{"id": "C143", "title": "The built-in verification of results accepts exactly the valid results", "statement": "The verification that the benchmarks offer (-verify, verify_mis, verify_matching, check_spanning_forest) is run when asked for, reports success for every proper coloring, maximal independent set, maximal matching and spanning forest, and reports an error for everything else.", "quantifier": "all graphs, all claimed results (right or wrong), all command lines, builds with and without NDEBUG", "why_tests_cant": "The verifiers are what the tests use as oracle; that they accept every wrong result of some kind cannot be seen from runs on right results.", "anchors": ["benchmarks/GraphColoring/Hasenplaugh14/GraphColoring.h:165-190", "benchmarks/GraphColoring/Hasenplaugh14/GraphColoring.cc:64-66", "benchmarks/MaximalIndependentSet/RandomGreedy/MaximalIndependentSet.h:32-61", "benchmarks/MaximalIndependentSet/RandomGreedy/MaximalIndependentSet.h:240-263", "benchmarks/MaximalIndependentSet/RandomGreedy/MaximalIndependentSet.cc:71", "benchmarks/MaximalMatching/RandomGreedy/MaximalMatching.h:248-288", "benchmarks/SpanningForest/check.h:89-116"]}
{"id": "C144", "title": "Incremental union-find: batches of insertions and queries", "statement": "After a sequence of UFAlgorithm::process_batch calls, two vertices have the same root exactly if they are connected by the labels at the start and the insertions so far; a query is answered yes exactly if its vertices are connected when the batch is over (reordered batches) or at some point in the batch. find_compress_uf returns labels of the components.", "quantifier": "all sequences of batches, both template arguments, all unite and find rules, all interleavings within the loops", "why_tests_cant": "Whether some interleaving of thousands of unions and finds loses a connection, or makes a query miss a connection of an earlier batch, cannot be settled by running some of them.", "anchors": ["benchmarks/Connectivity/UnionFind/Connectivity.h:112-163", "benchmarks/Connectivity/common.h:15-21", "benchmarks/Connectivity/UnionFind/union_find_rules.h"]}
{"id": "C145", "title": "Relabelling returns the filtered graph with renamed vertices and sorted lists", "statement": "relabel_graph(GA, rank, pred), for a permutation rank, returns the graph that has exactly the edges of GA that satisfy the predicate, with every vertex v renamed to rank[v], the same weights, sorted lists and the right number of edges, and writes only to the arrays it allocated; the orderings it is called with order the vertices by what their name says.", "quantifier": "every graph, permutation, predicate, weight type, order of the parallel iterations and content of uninitialised memory, uncompressed and compressed", "why_tests_cant": "Each vertex writes its offset, list and degree at the position of another one, from two passes that must agree to the byte; tests count cliques of a few graphs, which do not change if a list is lost or mixed up where there is no clique.", "anchors": ["benchmarks/CliqueCounting/relabel.h:30-213", "benchmarks/CliqueCounting/Clique.h:51-88", "benchmarks/CliqueCounting/Clique.h:172-187"]}
{"id": "C146", "title": "Graph objects behave like values under copying, moving and destruction", "statement": "Copying, moving, assigning, packing and destroying symmetric and asymmetric graphs in any order has the effect it has on values: a copy is equal to the original and independent of it, a move transfers the contents, no array is freed twice, with a wrong size or used after it was freed, and nothing leaks.", "quantifier": "every program of such statements on any number of graphs with any contents and weights, every allocator", "why_tests_cant": "Double frees, leaks and frees of a wrong size are not visible in results, and the graphs that tests copy are neither packed nor compressed; a test runs a few of the orders in which objects are made and destroyed.", "anchors": ["gbbs/graph.h:142-253", "gbbs/graph.h:560-650", "gbbs/bridge.h:122-130", "gbbs/benchmark.h:7-18", "gbbs/graph_mutation.h:276"]}
{"id": "C147", "title": "Edge lists of graphs and graphs of edge lists agree", "statement": "G.edges() and to_edge_array(G) list every edge of G exactly once, by source and in list order; building a symmetric graph from its own edges gives it back; asymmetric_graph::from_edges makes in- and out-lists that contain exactly the given edges, duplicates included, sorted; reduceEdges combines the images of all edges in order.", "quantifier": "every graph, weight type, order of the parallel writes, outcome of unstable sorts, monoid and shape of the reduction", "why_tests_cant": "The iterations share one output array through prefix sums and a counter, and the sort may order equal keys in any way; tests list the edges of a handful of tiny graphs and cannot have 2^32 edges.", "anchors": ["gbbs/graph.h:88-133", "gbbs/graph.h:308-347", "gbbs/graph.h:652-728", "gbbs/edge_array.h:37-62", "gbbs/edge_array.h:169-190", "gbbs/macros.h:41-55"]}
{"id": "C148", "title": "Sequential, bounded and resizing operations of sparse_table", "statement": "In any sequence of insert_seq, mark_seq, contains, find and clear_table on a table built for enough values, every call returns what it would on a finite map in which mark_seq deletes, and entries and idx agree with that map. A batch of concurrent insert_check calls always returns, and unless abort is set it has inserted every key. resize keeps the entries and makes room for the announced number.", "quantifier": "every hash function, key and value type, history of calls, number of threads and interleaving, probe limit, table size", "why_tests_cant": "The results depend on where the hash function puts the keys, on the history of marks and on races for slots; the limit of 10000 probes and the 32-bit shift in resize are out of reach of test tables. No test calls these functions.", "anchors": ["gbbs/helpers/sparse_table.h:57-96", "gbbs/helpers/sparse_table.h:137-195", "gbbs/helpers/sparse_table.h:197-235", "gbbs/helpers/sparse_table.h:249-273", "gbbs/contract.h:144-190"]}
{"id": "C149", "title": "SSWidestPathBF returns the greatest bottlenecks", "statement": "For every schedule, SSWidestPathBF returns for each vertex the greatest among -1 and the bottlenecks (least edge weights) of the walks from the source, and never takes the branch for round == n. With weights that are not negative, this is the greatest bottleneck for the reachable vertices and -1 exactly for the others.", "quantifier": "every graph, integer weights, source, interleaving, choice of traversal allowed by the flags", "why_tests_cant": "Widths are raised by racing write_max calls, with the source of an edge read while another thread raises it; which traversal runs depends on the frontier sizes. The repository has no test for this function.", "anchors": ["benchmarks/SSWidestPath/JulienneDBS17/SSWidestPath.h:174-247", "gbbs/bridge.h:330-338", "gbbs/edge_map_data.h:141-187"]}
{"id": "C150", "title": "ApproxCosineSimilarity returns the SimHash estimate", "statement": "For an edge between vertices of high degree, ApproxCosineSimilarity::AllEdges computes the number of hyperplanes, out of num_samples, that separate the vectors of the two closed neighbourhoods (the similarity is the cosine of this number times pi / num_samples, or 0). Every vertex that takes part has its own random number for each hyperplane; no number is used twice or left undrawn, and no read or write is out of bounds. With a fixed seed the result does not depend on the schedule or on the direction of the edge, and neighbours with equal closed neighbourhoods get similarity 1.", "quantifier": "every symmetric graph without self-loops with fewer than 2^32 vertices, with or without weights; every threshold; every number of samples; every sequence of random numbers; every order of the writes; any arithmetic of the dot products", "why_tests_cant": "The estimate is random, so tests accept a range of values; a number shared by two hyperplanes, a bit stored in the wrong place or a last array cut off wrongly still gives a value in this range.", "anchors": ["benchmarks/SCAN/IndexBased/similarity_measure.h:286-411", "benchmarks/SCAN/IndexBased/similarity_measure.h:521-548", "benchmarks/SCAN/IndexBased/similarity_measure.h:892-899", "benchmarks/SCAN/IndexBased/similarity_measure.cc:12-32"]}
{"id": "C151", "title": "sample_edges, srcCount and srcPack select the same edges", "statement": "sample_edges returns exactly the edges on which the predicate is 1, vertex by vertex in the order of the lists. srcCount returns each vertex of the subset with the number of its out-neighbours that satisfy the predicate; srcPack returns the same numbers, and they are the degrees after it. Iterations of the parallel loops use disjoint parts of the temporary array.", "quantifier": "every graph, predicate and subset; every order of the parallel loops; degrees on both sides of the threshold for the temporary array", "why_tests_cant": "The repository has no test for these functions; offsets, sizes and temporary space come from separate scans that must agree for every combination of degrees and selected edges.", "anchors": ["gbbs/graph_mutation.h:328-381", "gbbs/graph_mutation.h:440-470", "gbbs/interface.h:62-72", "gbbs/vertex.h:123-146", "gbbs/vertex.h:189-212"]}
{"id": "C152", "title": "sample_frequent_element returns a label that was sampled most often; annotate_updates marks exactly the updates as insertions", "statement": "sample_frequent_element returns a label that occurs in the sequence, with the fraction of the samples that hit it; no label was sampled more often, and a label that was sampled in more than half of the cases is the one returned. annotate_updates returns a batch whose insertions are exactly the given updates, and whose other entries are queries between vertices of the graph.", "quantifier": "every sequence, all draws within the distribution, every iteration order of the hash table; every list of updates, ratio, rounding and order of the loops", "why_tests_cant": "The draws come from a fixed generator, so a test sees one outcome per length; the results on empty sequences, zero samples and counts beyond the counter are undefined or do not end.", "anchors": ["benchmarks/Connectivity/connectit.h:88-118", "benchmarks/Connectivity/common.h:22-63", "benchmarks/Connectivity/common.cc:5-44", "benchmarks/Connectivity/ConnectIt/sampling.h:20-32"]}
{"id": "C153", "title": "Copies of pointer graphs are equal to the original and independent of it", "statement": "A copy of a symmetric_ptr_graph or asymmetric_ptr_graph has the same neighbour lists as the original, also if the lists of the original are anywhere in memory, for example after packing. The lists of the copy are in new arrays of exactly the right size, so later changes of one graph do not show in the other. from_edges builds sorted lists without duplicates that hold every given edge in both directions.", "quantifier": "every graph, position of its lists in memory, and order of the parallel loops; every edge list", "why_tests_cant": "The tests of the repository compare degrees of copies only; whether a list is shared or overwritten by another iteration depends on addresses and on the schedule.", "anchors": ["gbbs/graph.h:349-397", "gbbs/graph.h:450-486", "gbbs/graph.h:802-862", "gbbs/vertex.h:396-423", "gbbs/vertex.h:442-470"]}
{"id": "C154", "title": "The sum counter returns the sum of all updates and the maximum counter the greatest of them", "statement": "When no update_value is in progress, get_value of an atomic_sum_counter returns the sum of the arguments of all finished calls since initialize or reset, although the calls add without synchronisation; all entries are within the array and the entries of two workers never coincide. get_value of an atomic_max_counter returns the greatest value supplied.", "quantifier": "all numbers of workers, all calls and values, every interleaving of the reads and writes, every content of the memory before initialize", "why_tests_cant": "A lost update or a stale maximum needs two accesses of different threads at the same moment, and tests run with whatever schedule occurs.", "anchors": ["gbbs/helpers/atomic_sum_counter.h:9-50", "gbbs/helpers/atomic_max_counter.h:7-20"]}
{"id": "C155", "title": "CompactClustering renumbers the clusters without gaps and keeps the clustering", "statement": "For a clustering with cluster ids below the number of vertices, CompactClustering returns the number of clusters in use; afterwards the ids are exactly those below this number, two vertices share a cluster if and only if they did before, the order of the ids is kept, and the same vertices are unclustered. A second call changes nothing.", "quantifier": "all clusterings of up to 2^32 - 1 vertices, every order of both parallel loops", "why_tests_cant": "No test of the repository calls it; the first loop has concurrent writes to shared entries.", "anchors": ["benchmarks/SCAN/IndexBased/utils.cc:33-50", "benchmarks/SCAN/IndexBased/utils.h:39-42"]}
{"id": "C156", "title": "Filtering a neighbour list in the amortized byte encoding emits exactly the accepted edges, once and in order", "statement": "filter on a compressed neighbour list calls the output function exactly once for each position below the number of accepted edges, with the accepted neighbours and their weights in list order; all accesses stay inside the temporary space that calculateTemporarySpace asks for, or the stack array for lists of degree up to 10000. This holds for a list just encoded and after any number of packs.", "quantifier": "all neighbour lists and weights the encoding admits, all predicates, every schedule of the parallel decoding and of the parallel filter, every content of the temporary space", "why_tests_cant": "Lists over 10000 edges take another path, decoded in rounds into shared temporary space; the tests of the repository use small graphs.", "anchors": ["gbbs/encodings/byte_pd_amortized.h:999-1015", "gbbs/encodings/byte_pd_amortized.h:1051-1104", "gbbs/compressed_vertex.h:99-131"]}
{"id": "C157", "title": "filter_edges, filter_all_edges and sample_edges give the right edges on compressed graphs", "statement": "On a graph in the amortized byte encoding, filter_edges with a predicate with values 0, 1 and 2 returns exactly the edges with value 2 and leaves exactly those with value 0, ordered by vertex and within each list, with their weights, and the vertices do not disturb each other although they share one memory. filter_all_edges and sample_edges return exactly the accepted edges; the former leaves all degrees 0.", "quantifier": "all graphs the encoding admits, after any number of earlier packs, all predicates, every order of the vertices and every schedule inside each list", "why_tests_cant": "Tests check single graphs with one schedule; an overlap of the memory written for two vertices, or of two output ranges, need not show.", "anchors": ["gbbs/graph_mutation.h:187-283", "gbbs/graph_mutation.h:284-381", "gbbs/graph.h:72-87", "gbbs/encodings/byte_pd_amortized.h:1051-1104"]}
{"id": "C158", "title": "Triangle returns the same exact count with every ordering, and kcore orients along the degeneracy order", "statement": "Triangle(G, f, ordering, P) with ordering degree, goodrich, kcore or barenboimelkin returns the number of triangles and calls f once for each, so all orderings agree. With kcore the edges are oriented along the degeneracy order, so that no vertex has more outgoing edges than its coreness.", "quantifier": "all simple symmetric graphs, every run of the ordering that returns, every schedule of the blocks", "why_tests_cant": "The count is right for any injective ranking, so comparing counts cannot show that the wrong array is used as the ranking; and ranks that coincide would lose triangles only on some graphs.", "anchors": ["benchmarks/TriangleCounting/ShunTangwongsan15/Triangle.h:206-269", "benchmarks/KCore/JulienneDBS17/KCore.h:146-200"]}
{"id": "C159", "title": "StergiouAlgorithm labels the connected components", "statement": "compute_components of StergiouAlgorithm, started with every vertex as its own parent and without sampling, ends with equal labels for two vertices exactly if they are connected.", "quantifier": "all symmetric graphs, every order of the concurrent updates and of the shortcuts", "why_tests_cant": "No test or benchmark of the repository uses this algorithm, and on connected graphs the result is right.", "anchors": ["benchmarks/Connectivity/LiuTarjan/Connectivity.h:404-461", "benchmarks/Connectivity/LiuTarjan/liu_tarjan_rules.h:109-114"]}
{"id": "C160", "title": "Compressed graph files are read completely", "statement": "read_o_direct, used for compressed graphs that are not mapped into memory, returns a buffer whose first fsize bytes are the bytes of the file; its requests are aligned as O_DIRECT demands and stay inside of the allocated buffer.", "quantifier": "all files of all lengths, all sizes of a page that divide the size of a chunk", "why_tests_cant": "Whether the last part of a file is read depends on its length modulo the size of a page and of a chunk of one gigabyte; a test with a few files does not meet the lengths that fail.", "anchors": ["gbbs/io.cc:81-146", "gbbs/graph_io.cc:242-252"]}
{"id": "C161", "title": "BiconnectivityStats prints the number of biconnected components", "statement": "From the parents and labels that Biconnectivity returns, BiconnectivityStats never fails its assertion, gives every edge its component, and prints the number of biconnected components.", "quantifier": "all symmetric graphs without self-loops and with at most 2^31 vertices, all executions of Biconnectivity, every order of the arcs", "why_tests_cant": "The labels depend on the breadth-first forest and on races; that an edge outside of the forest has equal labels at both ends and that every component is counted once holds only because of how critical edges are removed.", "anchors": ["benchmarks/Biconnectivity/TarjanVishkin/Biconnectivity.cc:46-136", "benchmarks/Biconnectivity/TarjanVishkin/Biconnectivity.h:474-486"]}
