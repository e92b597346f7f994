{
 "claims": [
  {
   "property": "C01",
   "status": "proved",
   "theorems": [
    "Gbbs.Byte.C01_byte_roundtrip_unweighted",
    "Gbbs.Byte.C01_byte_roundtrip_int",
    "Gbbs.Byte.C01_byte_roundtrip_float",
    "Gbbs.Byte.C01_int_min_undefined",
    "Gbbs.Byte.C01_duplicates_not_encodable"
   ],
   "note": "byte encoding, all three weight codecs; the code's preconditions (strictly increasing neighbours, no INT_MIN weight) are shown necessary"
  },
  {
   "property": "C02",
   "status": "proved",
   "theorems": [
    "Gbbs.Byte.C02_byte_pack_unweighted",
    "Gbbs.Byte.C02_byte_pack_int",
    "Gbbs.Byte.C02_byte_filter_unweighted",
    "Gbbs.Byte.C02_byte_filter_int"
   ],
   "note": ""
  },
  {
   "property": "C03",
   "status": "partial",
   "theorems": [
    "Gbbs.Byte.C03_byte_ith_neighbor_partial",
    "Gbbs.Byte.C03_byte_ith_neighbor_wrong",
    "Gbbs.AM.C03_amortized_ith_neighbor_partial",
    "Gbbs.AM.C03_amortized_ith_neighbor_wrong"
   ],
   "note": "get_ith_neighbor returns entry i-1 for i>0: full statement refuted by witness, exact behaviour proved"
  },
  {
   "property": "C04",
   "status": "proved",
   "theorems": [
    "Gbbs.Byte.C04_byte_map_reduce",
    "Gbbs.PD.C04_bytepd_map_reduce",
    "Gbbs.AM.C04_amortized_map_reduce"
   ],
   "note": "all three encodings"
  },
  {
   "property": "C05",
   "status": "partial",
   "theorems": [
    "Gbbs.PD.C05_bytepd_roundtrip_unweighted",
    "Gbbs.PD.C05_bytepd_roundtrip_int",
    "Gbbs.PD.C05_bytepd_full_traversal",
    "Gbbs.PD.C05_bytepd_far_neighbor_undefined",
    "Gbbs.PD.C05_bytepd_stop_is_per_block"
   ],
   "note": "round trip for all lists of up to 3e8 entries with no neighbour exactly 2^31 away (for which the encoder is undefined, shown)"
  },
  {
   "property": "C06",
   "status": "partial",
   "theorems": [
    "Gbbs.PD.C06_bytepd_block_degree_partial",
    "Gbbs.PD.C06_bytepd_block_degree_wrong",
    "Gbbs.AM.C06_amortized_block_degree"
   ],
   "note": "false for bytepd at multiples of 1000 (proved), true otherwise and for bytepd_amortized"
  },
  {
   "property": "C07",
   "status": "partial",
   "theorems": [
    "Gbbs.AM.C07_amortized_roundtrip_unweighted",
    "Gbbs.AM.C07_amortized_roundtrip_int",
    "Gbbs.AM.C07_amortized_float_weights_lost"
   ],
   "note": "unweighted and int weights proved; float weights are lost by the code (proved)"
  },
  {
   "property": "C08",
   "status": "proved",
   "theorems": [
    "Gbbs.Isect.mergeT_eq",
    "Gbbs.Isect.merge_correct",
    "Gbbs.Isect.intersectFPar_correct",
    "Gbbs.Isect.seqMergeFull_eq",
    "Gbbs.Isect.seqMerge_eq",
    "Gbbs.Isect.intersect_eq_seq",
    "Gbbs.Isect.mergeT_multi_depends_on_threshold"
   ],
   "note": "every threshold; with duplicates in the lists (outside the claim) the answer depends on the thresholds, shown"
  },
  {
   "property": "C09",
   "status": "proved",
   "theorems": [
    "Gbbs.Filter.filterfOut_correct",
    "Gbbs.Filter.filterfCall_correct",
    "Gbbs.Filter.filterIndex_correct"
   ],
   "note": ""
  },
  {
   "property": "C10",
   "status": "proved",
   "theorems": [
    "Gbbs.Atomics.C10_write_min",
    "Gbbs.Atomics.C10_write_min_true_iff_lowered",
    "Gbbs.Atomics.C10_write_max"
   ],
   "note": "sequentially consistent interleavings, any number of threads"
  },
  {
   "property": "C11",
   "status": "proved",
   "theorems": [
    "Gbbs.Atomics.C11_fetch_and_add"
   ],
   "note": ""
  },
  {
   "property": "C12",
   "status": "proved",
   "theorems": [
    "Gbbs.Atomics.C12_fetch_and_add_threshold"
   ],
   "note": "no wrap-around of old+b"
  },
  {
   "property": "C13",
   "status": "proved",
   "theorems": [
    "Gbbs.Buckets.next_bucket_correct",
    "Gbbs.Buckets.next_bucket_increasing",
    "Gbbs.Buckets.create_ok",
    "Gbbs.Buckets.move2_ok",
    "Gbbs.Buckets.move1_ok",
    "Gbbs.Buckets.insertion_into_empty_dropped"
   ],
   "note": "all histories in which nothing is inserted before the last returned bucket (initially: before the first initial bucket); membership of the returned list is exact, multiplicity is C52"
  },
  {
   "property": "C14",
   "status": "proved",
   "theorems": [
    "Gbbs.Buckets.next_bucket_correct",
    "Gbbs.Buckets.next_bucket_decreasing",
    "Gbbs.Buckets.create_ok",
    "Gbbs.Buckets.move2_ok",
    "Gbbs.Buckets.move1_ok"
   ],
   "note": "as C13, and bucket ids + open buckets do not exceed the null id"
  },
  {
   "property": "C15",
   "status": "proved",
   "theorems": [
    "Gbbs.Buckets.parUpdate_spec",
    "Gbbs.Buckets.parUpdate_eq_seqUpdate",
    "Gbbs.Buckets.parUpdate_refines",
    "Gbbs.Buckets.hist_in_bounds"
   ],
   "note": ""
  },
  {
   "property": "C16",
   "status": "proved",
   "theorems": [
    "Gbbs.VSub.conversions_preserve",
    "Gbbs.VSub.toSparse_ok",
    "Gbbs.VSub.toDense_ok"
   ],
   "note": ""
  },
  {
   "property": "C17",
   "status": "partial",
   "theorems": [
    "Gbbs.VSub.add_correct_partial",
    "Gbbs.VSub.add_stale_sparse",
    "Gbbs.VSub.add_stale_dense"
   ],
   "note": "proved when only one representation is materialised; otherwise the other one is left stale and the statement is false (proved)"
  },
  {
   "property": "C18",
   "status": "partial",
   "theorems": [
    "Gbbs.Chunked.chunked_correct_partial",
    "Gbbs.Chunked.groups_partition",
    "Gbbs.Chunked.entries_fit",
    "Gbbs.Chunked.large_entries_overflow",
    "Gbbs.Chunked.chunked_no_edges",
    "Gbbs.EdgeMap.chunkedWork_ok"
   ],
   "note": "the partition is proved in full; the output buffers are only large enough for entries of at most 16 bytes (overflow for 24 bytes proved)"
  },
  {
   "property": "C19",
   "status": "proved",
   "theorems": [
    "Gbbs.EdgeMap.edgeMap_correct",
    "Gbbs.EdgeMap.chunked_target",
    "Gbbs.EdgeMap.forward_target",
    "Gbbs.EdgeMap.dense_target",
    "Gbbs.EdgeMap.edgeMapChunked_target"
   ],
   "note": "every interleaving of the individual accesses; the choice of traversal is modelled, for a subset without a cached degree sum (see C54 for the cache)"
  },
  {
   "property": "C20",
   "status": "proved",
   "theorems": [
    "Gbbs.Hash.insert_keys",
    "Gbbs.Hash.insert_values",
    "Gbbs.Hash.probes_bounded",
    "Gbbs.Hash.contains_spec",
    "Gbbs.Hash.find_spec",
    "Gbbs.Hash.entries_spec",
    "Gbbs.Hash.table_has_free",
    "Gbbs.Hash.resize_spec"
   ],
   "note": "all interleavings of insertions; lookups in a later phase; resize is a later phase as well"
  },
  {
   "property": "C21",
   "status": "partial",
   "theorems": [
    "Gbbs.SeqHT.insertAddKeys_counts",
    "Gbbs.SeqHT.insertF_sums",
    "Gbbs.SeqHT.compact_insAll",
    "Gbbs.SeqHT.find_spec",
    "Gbbs.SeqHT.insertAddPairs_wrong",
    "Gbbs.SeqHT.insertAddPairs_partial"
   ],
   "note": "key overload and insertF proved; the pair overload of insertAdd stores 1 for the first value (proved false)"
  },
  {
   "property": "C22",
   "status": "proved",
   "theorems": [
    "Gbbs.Csr.computeOffsets_csr",
    "Gbbs.Csr.vertexData_csr",
    "Gbbs.Csr.computeOffsets_spec",
    "Gbbs.Csr.vertexData_spec",
    "Gbbs.Csr.fromEdges_spec"
   ],
   "note": "both constructions of the code, every order of the individual writes"
  },
  {
   "property": "C23",
   "status": "partial",
   "theorems": [
    "Gbbs.Csr.defaultN_wrong",
    "Gbbs.Csr.defaultN_partial"
   ],
   "note": "false as stated: the default adds the endpoints instead of taking the maximum; it is always large enough"
  },
  {
   "property": "C24",
   "status": "partial",
   "theorems": [
    "Gbbs.Csr.edgeListToSymmetric_partial",
    "Gbbs.Csr.edgeList_only_loops",
    "Gbbs.Csr.fromEdges_spec"
   ],
   "note": "proved for every list with an edge that is not a self loop; a list with only self loops gives a null vertex array (proved)"
  },
  {
   "property": "C25",
   "status": "proved",
   "theorems": [
    "Gbbs.Text.write_parse",
    "Gbbs.Text.write_read"
   ],
   "note": ""
  },
  {
   "property": "C26",
   "status": "partial",
   "theorems": [
    "Gbbs.Text.weights_roundtrip_partial",
    "Gbbs.Text.writeW_parseW",
    "Gbbs.Text.weights_wrong",
    "Gbbs.Text.weights_undefined"
   ],
   "note": "proved for weights representable in single precision; other weights are rounded and INT_MAX is undefined (proved)"
  },
  {
   "property": "C27",
   "status": "partial",
   "theorems": [
    "Gbbs.Transpose.transpose_unweighted_partial",
    "Gbbs.Transpose.transpose_weighted_partial",
    "Gbbs.Transpose.transpose_weighted_wrong",
    "Gbbs.Transpose.transpose_no_edges",
    "Gbbs.Transpose.inData_spec"
   ],
   "note": "unweighted: proved with at least one edge, reads an empty array without edges (proved); weighted: proved when the uninitialised word tOffsets[n] happens to be at least m, false otherwise (proved)"
  },
  {
   "property": "C28",
   "status": "partial",
   "theorems": [
    "Gbbs.Mutate.filterGraph_correct",
    "Gbbs.Mutate.packEdges_correct",
    "Gbbs.Mutate.filterEdges_correct",
    "Gbbs.MutateByte.filterGraphByte_lists_partial",
    "Gbbs.MutateByte.filterGraphByte_m",
    "Gbbs.MutateByte.filterGraphByte_wrong_m",
    "Gbbs.MutateByte.filterGraphIter_lists_partial"
   ],
   "note": "uncompressed graphs proved; for byte-compressed graphs the lists are proved and the edge count is proved wrong; packEdges leaves G.m as it was"
  },
  {
   "property": "C29",
   "status": "proved",
   "theorems": [
    "Gbbs.Relabel.relabel_correct"
   ],
   "note": ""
  },
  {
   "property": "C30",
   "status": "proved",
   "theorems": [
    "Gbbs.UF.unite_components",
    "Gbbs.UF.unite_final",
    "Gbbs.UF.uniteND_components",
    "Gbbs.UF.uniteRemCAS_components",
    "Gbbs.UF.uniteRemLock_components"
   ],
   "note": "all find variants; also UniteEarly, UniteND, UniteRemCAS and UniteRemLock (the last two with split or halve; splice_atomic not covered)"
  },
  {
   "property": "C31",
   "status": "partial",
   "theorems": [
    "Gbbs.UF.unite_forest",
    "Gbbs.UF.unite_count",
    "Gbbs.UF.uniteND_forest",
    "Gbbs.UF.remCAS_phantom",
    "Gbbs.UF.remCASsf_no_union"
   ],
   "note": "proved for Unite, UniteEarly, UniteND; false for UniteRemCAS (proved)"
  },
  {
   "property": "C32",
   "status": "proved",
   "theorems": [
    "Gbbs.BFS.bfs_correct",
    "Gbbs.BFS.bfs_path",
    "Gbbs.BFS.bfs_rounds"
   ],
   "note": ""
  },
  {
   "property": "C33",
   "status": "proved",
   "theorems": [
    "Gbbs.BF.bf_correct",
    "Gbbs.BF.bf_detect"
   ],
   "note": "exact arithmetic; walks of fewer than n edges weigh less than the infinity value"
  },
  {
   "property": "C34",
   "status": "proved",
   "theorems": [
    "Gbbs.WBFS.wbfs_correct",
    "Gbbs.WBFS.wbfs_rounds",
    "Gbbs.WBFS.wbfs_progress"
   ],
   "note": "weights >= 0; walks of at most n edges weigh less than INT_E_MAX"
  },
  {
   "property": "C35",
   "status": "partial",
   "theorems": [
    "Gbbs.Delta.delta_rebucket_partial",
    "Gbbs.Delta.delta_correct_partial",
    "Gbbs.Delta.delta_lost"
   ],
   "note": "false as stated (proved, concrete race); proved for executions in which the claiming update returns the distance at the start of the round"
  },
  {
   "property": "C36",
   "status": "partial",
   "theorems": [
    "Gbbs.Widest.widest_rebucket_partial",
    "Gbbs.Widest.widest_correct_partial",
    "Gbbs.Widest.widest_lost"
   ],
   "note": "false as stated (proved, with the default 128 buckets); proved when max_weight + 1 < number of open buckets"
  },
  {
   "property": "C37",
   "status": "proved",
   "theorems": [
    "Gbbs.KCore.kcore_correct",
    "Gbbs.KCore.kcore_progress"
   ],
   "note": "degrees below UINT_E_MAX"
  },
  {
   "property": "C38",
   "status": "partial",
   "theorems": [
    "Gbbs.KCoreFA.kcoreFA_ge_partial",
    "Gbbs.KCoreFA.kcoreFA_exact_partial",
    "Gbbs.KCoreFA.kcoreFA_progress_partial",
    "Gbbs.KCoreFA.kcoreFA_wrong"
   ],
   "note": "false as stated (proved: a path on four vertices); values never below the coreness; exact when every traversal is dense with sequential in-neighbourhoods; always terminates"
  },
  {
   "property": "C39",
   "status": "proved",
   "theorems": [
    "Gbbs.MIS.mis_greedy",
    "Gbbs.MIS.mis_correct",
    "Gbbs.MIS.mis_deterministic",
    "Gbbs.MIS.mis_rounds"
   ],
   "note": "degrees below 2^31 (priorities are 32-bit ints)"
  },
  {
   "property": "C40",
   "status": "proved",
   "theorems": [
    "Gbbs.Coloring.coloring_proper",
    "Gbbs.Coloring.coloring_rounds"
   ],
   "note": "degrees below 2^31; any key in place of the (log-)degree"
  },
  {
   "property": "C41",
   "status": "partial",
   "theorems": [
    "Gbbs.Coloring.coloring_range_partial",
    "Gbbs.Coloring.coloring_range_false"
   ],
   "note": "false as stated (proved: one edge); colours are at most deg(v)+1"
  },
  {
   "property": "C42",
   "status": "partial",
   "theorems": [
    "Gbbs.GetEdges.get_edges_partial",
    "Gbbs.GetEdges.get_edges_sample_partial",
    "Gbbs.GetEdges.get_edges_hangs"
   ],
   "note": "false as stated (proved: never finishes when a vertex without live edges has offset n-1 and there are at least n live edges); without this coincidence the result is the list of live edges; also for sampled indices"
  },
  {
   "property": "C43",
   "status": "proved",
   "theorems": [
    "Gbbs.Match.match_greedy",
    "Gbbs.Match.greedy_maximal",
    "Gbbs.Match.greedy_unique",
    "Gbbs.Match.match_rounds"
   ],
   "note": "for executions in which the loop ends (see C60); at most 2^32-1 edges, vertex ids below 2^31"
  },
  {
   "property": "C44",
   "status": "proved",
   "theorems": [
    "Gbbs.Kruskal.kruskal_msf",
    "Gbbs.Kruskal.kruskal_no_edges"
   ],
   "note": "the sort is any sorted permutation (parlay); weights are mathematical integers; without edges the program reads the first weight (recorded)"
  },
  {
   "property": "C45",
   "status": "proved",
   "theorems": [
    "Gbbs.Tri.triangle_exact",
    "Gbbs.Tri.balance_exact",
    "Gbbs.Tri.rankOf_inj"
   ],
   "note": "unweighted uncompressed graphs; the degree and degeneracy orders only enter as injective ranks"
  },
  {
   "property": "C46",
   "status": "proved",
   "theorems": [
    "Gbbs.LDD.ldd_correct",
    "Gbbs.LDD.ldd_connected",
    "Gbbs.LDD.genShifts_ok"
   ],
   "note": "floating point treated as real arithmetic in genShifts_ok only"
  },
  {
   "property": "C47",
   "status": "partial",
   "theorems": [
    "Gbbs.Densest.charikar_partial",
    "Gbbs.Densest.charikar_exit",
    "Gbbs.Densest.charikar_edge_refuted",
    "Gbbs.Densest.charikar_triangle_refuted"
   ],
   "note": "false as stated: on an edge every run returns 0 (maximum 1/2), on a triangle 2/3, the density of no subgraph; with a loop the program exits. Without loops and from four vertices on, the value is between half the greatest density and twice the density of a subgraph"
  },
  {
   "property": "C48",
   "status": "proved",
   "theorems": [
    "Gbbs.SpecFor.spec_rounds",
    "Gbbs.SpecFor.spec_once",
    "Gbbs.SpecFor.spec_complete",
    "Gbbs.SpecFor.spec_bounds",
    "Gbbs.SpecFor.spec_enabled",
    "Gbbs.SpecFor.spec_progress"
   ],
   "note": "s <= e, maxRoundSize < 2^31; for runs that end; termination under the progress condition of spec_progress"
  },
  {
   "property": "C49",
   "status": "partial",
   "theorems": [
    "Gbbs.Byte.C49_byte_intersect_partial",
    "Gbbs.Byte.C49_byte_intersect_reads_past_end"
   ],
   "note": "result correct; but the iterator reads past the encoding"
  },
  {
   "property": "C50",
   "status": "partial",
   "theorems": [
    "Gbbs.PD.C50_bytepd_pack_partial",
    "Gbbs.PD.C50_bytepd_filter",
    "Gbbs.PD.C50_bytepd_pack_ignores_predicate",
    "Gbbs.PD.C50_bytepd_pack_empty_wrong"
   ],
   "note": "pack correct for 1..1000 entries; false for 0 and more than 1000 entries (proved)"
  },
  {
   "property": "C51",
   "status": "partial",
   "theorems": [
    "Gbbs.AM.C51_amortized_pack_history",
    "Gbbs.AM.C51_amortized_pack_history_unweighted",
    "Gbbs.AM.C51_amortized_pack_defined",
    "Gbbs.AM.C51_amortized_pack_stack_overflow"
   ],
   "note": "all histories of defined calls; a call on a 100-block list is undefined behaviour in the code (proved)"
  },
  {
   "property": "C52",
   "status": "partial",
   "theorems": [
    "Gbbs.Buckets.next_bucket_correct",
    "Gbbs.Buckets.duplicate_after_moving_back",
    "Gbbs.Buckets.duplicate_in_decreasing_overflow"
   ],
   "note": "proved for moves to earlier buckets with get_bucket(prev,next) and for reinsertion of extracted identifiers; false for get_bucket(next) in decreasing order (proved)"
  },
  {
   "property": "C53",
   "status": "proved",
   "theorems": [
    "Gbbs.VSub.vertexFilter_correct"
   ],
   "note": ""
  },
  {
   "property": "C54",
   "status": "partial",
   "theorems": [
    "Gbbs.EdgeMap.edgeMap_correct_partial",
    "Gbbs.EdgeMap.stale_direction",
    "Gbbs.EdgeMap.stale_after_add"
   ],
   "note": "false as stated (proved): the cache is neither tied to the direction nor reset by add_to_vsubset; the positive theorem assumes a right or absent cache"
  },
  {
   "property": "C55",
   "status": "partial",
   "theorems": [
    "Gbbs.Hash.additive_values",
    "Gbbs.Hash.insert_keys",
    "Gbbs.Hash.additive_map_full"
   ],
   "note": "values proved for all interleavings; termination of lookups fails for a table filled to its declared size (proved)"
  },
  {
   "property": "C56",
   "status": "partial",
   "theorems": [
    "Gbbs.Csr.weights_symmetric_partial",
    "Gbbs.Csr.weights_asymmetric"
   ],
   "note": "proved without conflicting duplicates; otherwise the unstable sort may keep different weights (proved)"
  },
  {
   "property": "C57",
   "status": "partial",
   "theorems": [
    "Gbbs.Text.parse_bytes_undefined",
    "Gbbs.Text.write_read"
   ],
   "note": "false as stated (proved): the buffer is ignored and the first token of an empty sequence is read; the file path is proved"
  },
  {
   "property": "C58",
   "status": "proved",
   "theorems": [
    "Gbbs.UF.connectivity_correct",
    "Gbbs.UF.IsLabelling.eq_iff",
    "Gbbs.UF.final_roots"
   ],
   "note": ""
  },
  {
   "property": "C59",
   "status": "partial",
   "theorems": [
    "Gbbs.UF.unite_forest",
    "Gbbs.UF.unite_count",
    "Gbbs.UF.uniteND_forest",
    "Gbbs.UF.remCASsf_not_spanning"
   ],
   "note": "proved for Unite, UniteEarly and UniteND; false for UniteRemCAS even sequentially (proved)"
  },
  {
   "property": "C60",
   "status": "partial",
   "theorems": [
    "Gbbs.Match.matching_call_aborts",
    "Gbbs.Match.matching_call_partial",
    "Gbbs.SpecFor.small_range_aborts"
   ],
   "note": "false as stated (proved: always aborts with n+1 < edges < 50, e.g. the complete graph on 4 vertices); completes with at most n+1 edges"
  },
  {
   "property": "C61",
   "status": "proved",
   "theorems": [
    "Gbbs.MISSpec.mis_spec_greedy",
    "Gbbs.MISSpec.mis_spec_correct",
    "Gbbs.MISSpec.mis_spec_rounds",
    "Gbbs.MISSpec.mis_spec_total"
   ],
   "note": "degrees below 2^31"
  },
  {
   "property": "C62",
   "status": "proved",
   "theorems": [
    "Gbbs.Degen.degeneracy_order"
   ],
   "note": "histograms as in C32; executions that return"
  },
  {
   "property": "C63",
   "status": "partial",
   "theorems": [
    "Gbbs.Degen.withLoad_zeros",
    "Gbbs.Degen.withLoad_not_perm",
    "Gbbs.Degen.withLoad_partial"
   ],
   "note": "false: the result has length 2n and begins with n zeros; the second half is an order when the loads are the degrees"
  },
  {
   "property": "C64",
   "status": "partial",
   "theorems": [
    "Gbbs.Densest.gpp_refuted",
    "Gbbs.Densest.gpp_partial"
   ],
   "note": "false: on every graph with distinct neighbours and two edges no run returns (n<10: reads past the end; otherwise exit(0)); without edges and n>=10 it returns 0"
  },
  {
   "property": "C65",
   "status": "partial",
   "theorems": [
    "Gbbs.Orders.intsort_partial",
    "Gbbs.Orders.intsort_first_partial",
    "Gbbs.Orders.intsort_refuted"
   ],
   "note": "bijection proved; the bound is proved for the first batch and in the weaker form 2d(n-s)/(n-j) for later ones; the claimed bound is refuted by a forest with 52 vertices (the batch size is fixed from n)"
  },
  {
   "property": "C66",
   "status": "partial",
   "theorems": [
    "Gbbs.Orders.kth_partial",
    "Gbbs.Orders.kth_refuted",
    "Gbbs.Orders.krun_last"
   ],
   "note": "every returned order is a permutation; with at most ns vertices left the read is out of range, always so for one vertex"
  },
  {
   "property": "C67",
   "status": "partial",
   "theorems": [
    "Gbbs.Orders.be_partial",
    "Gbbs.Orders.be_refuted",
    "Gbbs.Orders.be_hub_refuted"
   ],
   "note": "every returned order is a permutation; refuted: no run returns if all degrees exceed the cutoff, and a single vertex of high degree is put first instead of last"
  },
  {
   "property": "C68",
   "status": "partial",
   "theorems": [
    "Gbbs.BFSCC.bfscc_partial",
    "Gbbs.BFSCC.bfscc_iff",
    "Gbbs.BFSCC.bfscc_refuted"
   ],
   "note": "the labels are the components for graphs with at most one vertex without edges, and only for those"
  },
  {
   "property": "C69",
   "status": "proved",
   "theorems": [
    "Gbbs.SV.sv_correct",
    "Gbbs.SV.sv_least",
    "Gbbs.SV.sv_compress_ends"
   ],
   "note": "any sampling, any frequent label, all interleavings; at most (roots + 1) rounds; compression ends within 2n+1 iterations of its loop"
  },
  {
   "property": "C70",
   "status": "partial",
   "theorems": [
    "Gbbs.SVBatch.batch_partial",
    "Gbbs.SVBatch.batch_refuted"
   ],
   "note": "equal roots imply connectivity; the converse is refuted by three batches of one edge each, for every execution"
  },
  {
   "property": "C71",
   "status": "proved",
   "theorems": [
    "Gbbs.LabelProp.lp_round",
    "Gbbs.LabelProp.lp_correct",
    "Gbbs.LabelProp.lp_sampled"
   ],
   "note": "bounded number of rounds included"
  },
  {
   "property": "C72",
   "status": "proved",
   "theorems": [
    "Gbbs.KOut.kout_start",
    "Gbbs.KOut.kout_sv",
    "Gbbs.KOut.kout_lp"
   ],
   "note": "partial correctness of link (runs in which its lock-free loop ends); all interleavings"
  },
  {
   "property": "C73",
   "status": "partial",
   "theorems": [
    "Gbbs.Sampling.bfs_partial",
    "Gbbs.Sampling.bfs_rounds",
    "Gbbs.Sampling.bfs_hangs",
    "Gbbs.Sampling.bfs_lp",
    "Gbbs.Sampling.ldd_lp"
   ],
   "note": "correct whenever it ends; at most n+2 rounds unless the source has an edge to itself; refuted: with such an edge as the only one of the source, in a graph with at least 40 edges, it never ends"
  },
  {
   "property": "C74",
   "status": "partial",
   "theorems": [
    "Gbbs.Contract.contract_partial",
    "Gbbs.Contract.insert_ends",
    "Gbbs.Contract.contract_exists",
    "Gbbs.Contract.contract_hangs",
    "Gbbs.Contract.contract_refuted"
   ],
   "note": "whatever is returned is the contraction; refuted: with fewer than 2048 clusters and more than 4096 pairs of adjacent clusters it never returns"
  },
  {
   "property": "C75",
   "status": "partial",
   "theorems": [
    "Gbbs.SDB14.cc_partial",
    "Gbbs.SDB14.level_shrinks",
    "Gbbs.SDB14.cc_levels",
    "Gbbs.SDB14.cc_exists",
    "Gbbs.SDB14.cc_refuted"
   ],
   "note": "whatever is returned is right, every level is smaller; refuted: with the default parameters it never returns on a graph of 65 x 65 edges preceded by isolated vertices (the contraction of C74 hangs)"
  },
  {
   "property": "C76",
   "status": "partial",
   "theorems": [
    "Gbbs.PageRank.pageRankEM_partial",
    "Gbbs.PageRank.pageRankEM_default",
    "Gbbs.PageRank.pageRank_exists",
    "Gbbs.PageRank.pageRank_unique",
    "Gbbs.PageRank.pageRankEM_exists",
    "Gbbs.PageRank.pageRankEM_zero",
    "Gbbs.PageRank.pageRankEM_refuted"
   ],
   "note": "proved whenever max_iters suffices for eps, in particular with the default arguments; refuted otherwise: a run that reaches max_iters returns the zero vector. Exact arithmetic"
  },
  {
   "property": "C77",
   "status": "partial",
   "theorems": [
    "Gbbs.PageRank.pageRank2_partial",
    "Gbbs.PageRank.pageRank2_same",
    "Gbbs.PageRank.pageRank2_refuted",
    "Gbbs.PageRank.pageRank2_refuted'",
    "Gbbs.PageRank.pageRank2_zero"
   ],
   "note": "equal on symmetric graphs; refuted on the directed graph with one edge, where the zero vector is returned. Exact arithmetic, infinite and NaN values as a separate outcome"
  },
  {
   "property": "C78",
   "status": "partial",
   "theorems": [
    "Gbbs.PageRank.delta_partial",
    "Gbbs.PageRank.delta_lower",
    "Gbbs.PageRank.delta_exists",
    "Gbbs.PageRank.delta_refuted"
   ],
   "note": "refuted: on a path with three vertices the ranks add up to more than 1.24, because the first round does not propagate negative changes; in general ranks never fall after the first round. Right for one round and for graphs with a uniform PageRank vector"
  },
  {
   "property": "C79",
   "status": "partial",
   "theorems": [
    "Gbbs.Bc.bc_partial",
    "Gbbs.Bc.bc_iff",
    "Gbbs.Bc.bc_exists",
    "Gbbs.Bc.bc_rounds",
    "Gbbs.Bc.bc_refuted"
   ],
   "note": "right for every vertex reachable from the start, in every run; refuted: every unreachable vertex gets NaN, so the property holds exactly for graphs in which everything is reachable. Exact arithmetic"
  },
  {
   "property": "C80",
   "status": "partial",
   "theorems": [
    "Gbbs.Bc.bcBFS_partial",
    "Gbbs.Bc.bc_agree",
    "Gbbs.Bc.bcBFS_exists",
    "Gbbs.Bc.bcBFS_refuted"
   ],
   "note": "agrees with C79 on every graph; the same refutation. Exact arithmetic"
  },
  {
   "property": "C81",
   "status": "partial",
   "theorems": [
    "Gbbs.Bc.bcEM_partial",
    "Gbbs.Bc.bcEM_small",
    "Gbbs.Bc.bcEM_exists",
    "Gbbs.Bc.bcEM_refuted"
   ],
   "note": "right for reachable vertices when there are at least 100 vertices; refuted: with fewer it prints 100 elements of a shorter array. Exact arithmetic"
  },
  {
   "property": "C82",
   "status": "proved",
   "theorems": [
    "Gbbs.RT.insert_set",
    "Gbbs.RT.insert_returns",
    "Gbbs.RT.insert_exists",
    "Gbbs.RT.contains2_spec",
    "Gbbs.RT.iter_spec",
    "Gbbs.RT.grow_ne",
    "Gbbs.RT.resize_spec",
    "Gbbs.RT.resize_exists",
    "Gbbs.RT.resize_room",
    "Gbbs.RT.insert_full"
   ],
   "note": "insert_full: in a full table an insertion never returns, which C83 runs into"
  },
  {
   "property": "C83",
   "status": "partial",
   "theorems": [
    "Gbbs.Scc.scc_partial",
    "Gbbs.Scc.first_search",
    "Gbbs.Scc.multi_search",
    "Gbbs.Scc.first_search_exists",
    "Gbbs.Scc.r_returns",
    "Gbbs.Scc.scc_hangs"
   ],
   "note": "whatever is returned is right, in all interleavings; refuted: a graph with 170 vertices on which a run with the default beta never returns, because a table of a search overflows"
  },
  {
   "property": "C84",
   "status": "proved",
   "theorems": [
    "Gbbs.Scc.num_scc",
    "Gbbs.Scc.scc_count_partial"
   ],
   "note": "for every result of StronglyConnectedComponents; scc_count_partial is partial only in that such a result need not exist (C83)"
  },
  {
   "property": "C85",
   "status": "proved",
   "theorems": [
    "Gbbs.BFSSF.bfs_sf",
    "Gbbs.BFSSF.bfs_sf_exists"
   ],
   "note": "all traversals and interleavings; bound on the rounds and existence of a run included"
  },
  {
   "property": "C86",
   "status": "proved",
   "theorems": [
    "Gbbs.BFSSF.det_sf",
    "Gbbs.BFSSF.det_unique",
    "Gbbs.BFSSF.det_sf_exists"
   ],
   "note": "all traversals and interleavings; uniqueness over all pairs of runs"
  },
  {
   "property": "C87",
   "status": "proved",
   "theorems": [
    "Gbbs.SVSF.sv_sf",
    "Gbbs.SVSF.sv_sf_sampled"
   ],
   "note": "partial correctness of the compression loops as in C69"
  },
  {
   "property": "C88",
   "status": "proved",
   "theorems": [
    "Gbbs.LPSF.lp_sf",
    "Gbbs.LPSF.lp_sf_sampled",
    "Gbbs.LPSF.start_perm"
   ],
   "note": "all traversals and interleavings; fuel of the write_min loops as in C71"
  },
  {
   "property": "C89",
   "status": "partial",
   "theorems": [
    "Gbbs.LT.lt_full",
    "Gbbs.LT.lt_full_sampled",
    "Gbbs.LT.lt_extended_short",
    "Gbbs.LT.lt_extended_short_sampled",
    "Gbbs.LT.lt_sound_partial",
    "Gbbs.LT.lt_short_refuted",
    "Gbbs.LT.lt_sampled_refuted"
   ],
   "note": "right with full_shortcut, and with extended_connect, simple_update and one shortcut; refuted for parent_connect with one shortcut per round, and for simple_update from a sample that labels a vertex with a larger one; labels never join different components"
  },
  {
   "property": "C90",
   "status": "partial",
   "theorems": [
    "Gbbs.LT.coo_full",
    "Gbbs.LT.coo_full_sampled",
    "Gbbs.LT.coo_sound_partial",
    "Gbbs.LT.coo_short_refuted"
   ],
   "note": "right with full_shortcut for all connect and update options; refuted for every combination with one shortcut per round"
  },
  {
   "property": "C91",
   "status": "partial",
   "theorems": [
    "Gbbs.LTSF.lt_sf",
    "Gbbs.LTSF.lt_sf_sampled",
    "Gbbs.LTSF.lt_sf_forest_partial",
    "Gbbs.LTSF.lt_sf_short_refuted"
   ],
   "note": "right with full_shortcut, the only option that the executables use; with one shortcut the edges form a forest of the graph that need not span it"
  },
  {
   "property": "C92",
   "status": "partial",
   "theorems": [
    "Gbbs.CCCheck.check_accepts_partial",
    "Gbbs.CCCheck.ccCheck_iff",
    "Gbbs.CCCheck.check_ignores",
    "Gbbs.CCCheck.check_refuted",
    "Gbbs.CCCheck.check_overflow"
   ],
   "note": "Correct labellings are accepted (check_accepts_partial). RelabelDet uses 0 both for unset and as the first new label, so the class of vertex 0 is never compared: what is decided exactly is equality on the other vertices (ccCheck_iff), and the label of vertex 0 is ignored (check_ignores, check_refuted). Labels above n overflow the table (check_overflow)."
  },
  {
   "property": "C93",
   "status": "partial",
   "theorems": [
    "Gbbs.SFFrame.framework_partial",
    "Gbbs.SFFrame.raw_not_sf",
    "Gbbs.SFFrame.framework_refuted"
   ],
   "note": "Refuted for every graph with a vertex: all n entries of Edges are returned, including the empty ones, because the return statement precedes the filter (framework_refuted; raw_not_sf covers whichever algorithm is plugged in). After removal of the empty entries the result is a spanning forest, proved for the Shiloach-Vishkin algorithm."
  },
  {
   "property": "C94",
   "status": "partial",
   "theorems": [
    "Gbbs.SFFrame.bfs_edges_partial",
    "Gbbs.SFFrame.bfs_edges_refuted"
   ],
   "note": "The recorded edges form a forest that connects exactly the equally labelled vertices, and their ends are connected in the graph (bfs_edges_partial, every interleaving). They need not be edges of the graph: every vertex is recorded with the source (bfs_edges_refuted)."
  },
  {
   "property": "C95",
   "status": "partial",
   "theorems": [
    "Gbbs.UF.uf_sampled",
    "Gbbs.UF.early_sampled_partial",
    "Gbbs.UF.early_refuted"
   ],
   "note": "uf_sampled: Unite, UniteND, UniteRemCAS and UniteRemLock (with splitting or halving) for every interleaving of the calls. UniteEarly is refuted (early_refuted: its calls may leave a cycle of parents when a centre is larger than a leaf, as LDD and BFS sampling produce it; the last loop then never ends) and correct when no label exceeds its vertex (early_sampled_partial), which covers no sampling and kout sampling. Not covered: splice_atomic and Jayanti."
  },
  {
   "property": "C96",
   "status": "partial",
   "theorems": [
    "Gbbs.UF.uf_sf_sampled",
    "Gbbs.UF.early_sf_sampled_partial",
    "Gbbs.UF.early_refuted"
   ],
   "note": "uf_sf_sampled: Unite, UniteND and UniteRemLock (with splitting or halving), which C59 left out, for every interleaving of the calls. UniteEarly as in C95. Not covered: UniteRemCAS, splice_atomic and Jayanti."
  },
  {
   "property": "C97",
   "status": "partial",
   "theorems": [
    "Gbbs.SDB14SF.sf_partial",
    "Gbbs.SDB14SF.sf_refuted"
   ],
   "note": "Refuted: at the last level the result is created with edges.size() default edges before the edges are appended (SpanningForest.h 166-170), so on every graph with an edge between two vertices the result starts with at least one edge (0, 0) (sf_refuted). sf_partial: if it ends, there is no undefined behaviour, and what follows these entries is a spanning forest. As in C74, the table of the small case may be too small, and then the code hangs."
  },
  {
   "property": "C98",
   "status": "proved",
   "theorems": [
    "Gbbs.SFSample.ldd_fstart",
    "Gbbs.SFSample.kout_fstart",
    "Gbbs.SFSample.ldd_sv_sf",
    "Gbbs.SFSample.kout_sv_sf"
   ],
   "note": "Line 45 of kout_sampling.h does not compile as written; it is read as the initialisation with the identity. uf_sf_sampled (C96) applies to the same starts."
  },
  {
   "property": "C99",
   "status": "partial",
   "theorems": [
    "Gbbs.BKV.densest_approx",
    "Gbbs.BKV.densest_returns"
   ],
   "note": "The value is arcs / vertices, twice the density. That every call returns is proved for at most 2^24 arcs; beyond, with one worker, the histogram may not return (C117). double is modelled as exact."
  },
  {
   "property": "C100",
   "status": "proved",
   "theorems": [
    "Gbbs.UF.simpleUnion_correct",
    "Gbbs.UF.cc_predicate",
    "Gbbs.UF.num_cc_correct",
    "Gbbs.UF.largest_cc_correct"
   ],
   "note": "Runs in which the loops end."
  },
  {
   "property": "C101",
   "status": "proved",
   "theorems": [
    "Gbbs.Spanner.spanner_correct",
    "Gbbs.Spanner.spanner_stretch",
    "Gbbs.Spanner.spanner_exists"
   ],
   "note": "r - 1 is |sh| - 2, with sh the list of shifts; the bound in terms of beta and log n holds with high probability only and is not modelled."
  },
  {
   "property": "C102",
   "status": "partial",
   "theorems": [
    "Gbbs.SetCover.setcover_partial",
    "Gbbs.SetCover.setcover_size",
    "Gbbs.SetCover.setcover_exists",
    "Gbbs.SetCover.setcover_endless"
   ],
   "note": "Covering and size hold for every run that returns. That runs return depends on an undefined conversion: for bucket 0 the exponent cur_bkt - 1 wraps around, pow is infinite, and infinity is converted to size_t. If that gives at most 1 every run can be completed (setcover_exists); if it gives 2 or more, no run returns on a single edge (setcover_endless). The bound on the size has a term 0.0198 |S| that the algorithm of the paper does not have, see DESIGN. double is modelled as exact; log/floor as the exact bucket."
  },
  {
   "property": "C103",
   "status": "proved",
   "theorems": [
    "Gbbs.Yoshida.mis_answers",
    "Gbbs.Yoshida.mis_complete",
    "Gbbs.Yoshida.mis_returns",
    "Gbbs.Yoshida.firstMis_mis",
    "Gbbs.Yoshida.mm_answers",
    "Gbbs.Yoshida.mm_complete",
    "Gbbs.Yoshida.mm_returns",
    "Gbbs.Yoshida.firstMatching_mm",
    "Gbbs.Yoshida.mis_selfloop"
   ],
   "note": "Sorting is trusted (the reordered lists are any sorted permutation). mis_selfloop shows that the restriction to graphs without self-loops is needed: the check exits otherwise. Weighted graphs are excluded, see DESIGN."
  },
  {
   "property": "C104",
   "status": "partial",
   "theorems": [
    "Gbbs.Clique.clique_count",
    "Gbbs.Clique.clique_count_edges",
    "Gbbs.Clique.clique_enum",
    "Gbbs.Clique.clique_three",
    "Gbbs.Clique.alloc_fits",
    "Gbbs.Clique.clique_zero",
    "Gbbs.Clique.complete_wrong",
    "Gbbs.Clique.complete_sym",
    "Gbbs.Clique.clique_reuse",
    "Gbbs.Clique.clique_level",
    "Gbbs.Clique.clique_endless",
    "Gbbs.Clique.enum_names"
   ],
   "note": "Proved for 4 <= k <= 129 (and k = 3 through C45) with arrays large enough for the out-degrees (they are in a first call: alloc_fits). Refuted otherwise: from k = 130 the result is 0 (clique_zero, complete_wrong), a later call on a graph with larger out-degrees is out of bounds (clique_reuse), so is recursive_level >= 2 (clique_level), recursive_level = 1 without labels does not return (clique_endless), and the enumeration with filter = false passes ranks (enum_names). Only the hybrid space (5) is modelled; the other spaces and approximate peeling are missing. Assumes that a worker does not steal an iteration of the same loop while inside another one."
  },
  {
   "property": "C105",
   "status": "partial",
   "theorems": [
    "Gbbs.Bicc.Run.correct",
    "Gbbs.Bicc.run_exists",
    "Gbbs.Bicc.outs_eq",
    "Gbbs.Bicc.BfsTree.all_edges",
    "Gbbs.Bicc.BfsTree.tree_edges",
    "Gbbs.Bicc.crit_iff",
    "Gbbs.Bicc.leaffix_fix",
    "Gbbs.Bicc.numbering_isPN",
    "Gbbs.Bicc.pn_interval",
    "Gbbs.Bicc.mapEdges_spec",
    "Gbbs.Bicc.multiBfs_forest",
    "Gbbs.Bicc.sources_one",
    "Gbbs.Bicc.big_wrong"
   ],
   "note": "Proved for at most 2^31 vertices. Above, the top bit is part of a name: refuted by big_wrong. Runs exist for every graph (run_exists). Sizes, numbers and counters are integers without overflow (all are at most n). Missing: deterministic_multi_bfs (not called), the output to a file."
  },
  {
   "property": "C106",
   "status": "partial",
   "theorems": [
    "Gbbs.Boruvka.Run.correct",
    "Gbbs.Boruvka.run_exists",
    "Gbbs.Boruvka.Run.size",
    "Gbbs.Boruvka.Iter.empties",
    "Gbbs.Boruvka.loop_bound",
    "Gbbs.Boruvka.CutRule.below",
    "Gbbs.Boruvka.CutRule.forest",
    "Gbbs.Boruvka.Inv.round",
    "Gbbs.Boruvka.Inv.fewer",
    "Gbbs.Boruvka.OInv.iter",
    "Gbbs.Boruvka.take_spec",
    "Gbbs.Boruvka.sample_ok",
    "Gbbs.Boruvka.split_ok",
    "Gbbs.Boruvka.loop_wrong",
    "Gbbs.Boruvka.heavy_wrong"
   ],
   "note": "Proved for graphs without self-loops, weights up to 2^31 - 1 and at most 2^31 arcs; refuted with a self-loop (loop_wrong: it is put into the forest) and with a heavier edge for a wider weight type (heavy_wrong: it is never chosen). Each write_min is one atomic action (C10). The outcome of the sampling in get_top_k is arbitrary; sample_ok and split_ok show that its reads are in range. Weights are integers."
  },
  {
   "property": "C107",
   "status": "partial",
   "theorems": [
    "Gbbs.Scan.cluster_correct",
    "Gbbs.Scan.clusterMany_correct",
    "Gbbs.Scan.IsScan.eq_iff",
    "Gbbs.Scan.det_unique",
    "Gbbs.Scan.best_exists",
    "Gbbs.Scan.cluster_exists",
    "Gbbs.Scan.clusterMany_exists",
    "Gbbs.Scan.Ix.cores",
    "Gbbs.Scan.Ix.of",
    "Gbbs.Scan.index_exists",
    "Gbbs.Scan.unites_spec",
    "Gbbs.Scan.attach_spec",
    "Gbbs.Scan.attachDet_spec",
    "Gbbs.Scan.inc_facts",
    "Gbbs.Scan.ex_result",
    "Gbbs.Scan.det_zero"
   ],
   "note": "The deterministic variant is proved for positive similarities and refuted for the similarity 0 (det_zero: a border vertex stays without a cluster). The similarities are those of the arcs of the graph in any order (their computation is not part of this claim), in any linear order; the set of cores is a set (C13). Library sorts are any sorted permutation."
  },
  {
   "property": "C108",
   "status": "partial",
   "theorems": [
    "Gbbs.Scan.intersectIx_good",
    "Gbbs.Scan.counter_exact",
    "Gbbs.Scan.sims_perm",
    "Gbbs.Scan.room",
    "Gbbs.Scan.simsOut_exists",
    "Gbbs.Scan.shared_card",
    "Gbbs.Scan.jaccard_exact",
    "Gbbs.Scan.cosine_exact",
    "Gbbs.Scan.sg_ok",
    "Gbbs.Scan.index_of_measure",
    "Gbbs.Scan.loop_wrong",
    "Gbbs.Scan.heavy_wraps",
    "Gbbs.Scan.neg_wraps"
   ],
   "note": "Proved for simple graphs without weights, and for weights as long as the sums fit. Refuted with a self-loop (loop_wrong: an entry of the result is never written), and in 32-bit counters for heavy or negative weights (heavy_wraps, neg_wraps). The rounding of the quotients to float is not modelled; on compressed vertices the code aborts."
  },
  {
   "property": "C109",
   "status": "partial",
   "theorems": [
    "Gbbs.Scan.estimate_spec",
    "Gbbs.Scan.estimate_same",
    "Gbbs.Scan.prints_unique",
    "Gbbs.Scan.print_spec",
    "Gbbs.Scan.writes_inb",
    "Gbbs.Scan.size_wraps"
   ],
   "note": "Proved if the number of fingerprints times the number of samples is below 2^32; refuted above (size_wraps: with 2^31 samples and two vertices the array is empty and is written). The division in float is not modelled."
  },
  {
   "property": "C110",
   "status": "partial",
   "theorems": [
    "Gbbs.Scan.hub_correct",
    "Gbbs.Scan.hub_exists",
    "Gbbs.Scan.collectReduce_spec",
    "Gbbs.Scan.collectReduce_exists",
    "Gbbs.Scan.modularity_correct",
    "Gbbs.Scan.modularityU_correct",
    "Gbbs.Scan.modularity_le_one",
    "Gbbs.Scan.modularity_exists",
    "Gbbs.Scan.modularityU_exists",
    "Gbbs.Scan.loop_modularity"
   ],
   "note": "Hubs and CollectReduce (for commutative monoids) are proved in full. Modularity is proved for graphs without a self-loop at an unclustered vertex and refuted with one (loop_modularity). double is modelled by the rationals; the sums of degrees must fit into uintT."
  },
  {
   "property": "C111",
   "status": "proved",
   "theorems": [
    "Gbbs.Scan.naive_correct",
    "Gbbs.Scan.isScan_iff",
    "Gbbs.Scan.naive_agrees",
    "Gbbs.Scan.similar_iff",
    "Gbbs.Scan.bfs_acc",
    "Gbbs.Scan.ngbClusters_some",
    "Gbbs.Scan.naive_exists",
    "Gbbs.Em.edgeMap_pure"
   ],
   "note": "Floating point: the value stored for an edge is an arbitrary function of the size of the intersection and of the sizes of the closed neighbourhoods (first that of the smaller endpoint)."
  },
  {
   "property": "C112",
   "status": "partial",
   "theorems": [
    "Gbbs.Cyc.five_serial",
    "Gbbs.Cyc.five_par",
    "Gbbs.Cyc.five_nosched",
    "Gbbs.Cyc.five_escape",
    "Gbbs.Cyc.five_escape_par",
    "Gbbs.Cyc.five_experiment",
    "Gbbs.Cyc.five_experiment_workers",
    "Gbbs.Cyc.ten_cycles",
    "Gbbs.Cyc.kowalik_unique",
    "Gbbs.Cyc.escape_unique",
    "Gbbs.Cyc.relabel_spec",
    "Gbbs.Cyc.binSearch_eq",
    "Gbbs.Cyc.block_partition",
    "Gbbs.Cyc.five_no_edges",
    "Gbbs.Cyc.five_reuse",
    "Gbbs.Cyc.five_many_edges"
   ],
   "note": "Counts proved for all six versions. The parallel versions with scheduling need an edge (five_no_edges: division by zero otherwise); the parallel Kowalik versions need workers whose arrays are large enough (five_reuse: arrays of an earlier, smaller graph are used again); relabel_graph needs fewer than 2^32 edge slots (five_many_edges). Count5Cycle_experiment needs at most 576 workers (five_experiment_workers)."
  },
  {
   "property": "C113",
   "status": "proved",
   "theorems": [
    "Gbbs.Jay.jayanti_components",
    "Gbbs.Jay.jayanti_calls",
    "Gbbs.Jay.jayanti_forest",
    "Gbbs.Jay.jayanti_rank"
   ],
   "note": "Partial correctness (all calls have returned); termination of the loop is a matter of probability and not claimed."
  },
  {
   "property": "C114",
   "status": "partial",
   "theorems": [
    "Gbbs.CoSim.cosimEM_partial",
    "Gbbs.CoSim.cosimEM_near",
    "Gbbs.CoSim.cosim_tail",
    "Gbbs.CoSim.cosimEM_refuted",
    "Gbbs.CoSim.cosimEM_max_refuted",
    "Gbbs.CoSim.cosimEM_exists"
   ],
   "note": "Every run prints the series cut off at the first step that moves both distributions by less than eps, or at max_iters; with eps = 0 the error is below c^(max_iters+1)/(1-c). False in general: with the default arguments the early stop loses more than 0.03 on a triangle, and when max_iters is reached the printed maxima are 0. Doubles are exact rationals."
  },
  {
   "property": "C115",
   "status": "partial",
   "theorems": [
    "Gbbs.CoSim.cosim2_partial",
    "Gbbs.CoSim.cosim2_refuted"
   ],
   "note": "True on symmetric graphs; on a directed graph with three edges CoSimRank prints 0 for two vertices whose similarity is at least c."
  },
  {
   "property": "C116",
   "status": "proved",
   "theorems": [
    "Gbbs.CountSort.countSort_spec",
    "Gbbs.CountSort.seqCountSort_spec"
   ],
   "note": "Counters and offsets as unbounded numbers; the truncation of bucket numbers to the bucket type is modelled."
  },
  {
   "property": "C117",
   "status": "partial",
   "theorems": [
    "Gbbs.Hist.histogram_partial",
    "Gbbs.Hist.histogram_pairs",
    "Gbbs.Hist.histMedium_spec",
    "Gbbs.Hist.histogram_full",
    "Gbbs.Hist.histogram_refuted"
   ],
   "note": "Proved for less than 2^30 keys, and with one worker if there are not more distinct keys than slots. False with one worker: for 2^24 + 1 distinct keys the number of slots, computed in single precision, is 2^24, and an insertion never returns."
  },
  {
   "property": "C118",
   "status": "partial",
   "theorems": [
    "Gbbs.Hist.histReduce_partial",
    "Gbbs.Hist.histReduce_refuted"
   ],
   "note": "As C117; the reduction has the form of insertF, as in the only caller, and no element has the reserved key."
  },
  {
   "property": "C119",
   "status": "partial",
   "theorems": [
    "Gbbs.Hist.countSparse_partial",
    "Gbbs.Hist.reached_isHist",
    "Gbbs.Hist.countDense_partial",
    "Gbbs.Hist.countDenseEM_partial",
    "Gbbs.Hist.edgeMapCountEM_partial",
    "Gbbs.Hist.edgeMapCount_partial",
    "Gbbs.Hist.denseCalls_eq",
    "Gbbs.Hist.countDense_directed_refuted",
    "Gbbs.Hist.countDense_cond_refuted",
    "Gbbs.Hist.countDense_apply_refuted",
    "Gbbs.Hist.edgeMapCount_empty_refuted"
   ],
   "note": "The sparse form is right on all graphs (less than 2^30 edges, with one worker at most 2^24), the dense form of the class EdgeMap on symmetric ones. False: the dense forms count the wrong direction on directed graphs; that of the free function returns uninitialised entries where the condition is false and reads an empty optional where apply_f gives no value; for an empty frontier the subset returned has a universe of 0 vertices."
  },
  {
   "property": "C120",
   "status": "partial",
   "theorems": [
    "Gbbs.Hist.reduceSparse_partial",
    "Gbbs.Hist.reduceSparse_refuted"
   ],
   "note": "With the value of an empty slot of the table in place of id, which is ignored; limits of C117."
  },
  {
   "property": "C121",
   "status": "partial",
   "theorems": [
    "Gbbs.Clique.Peel.update_exact",
    "Gbbs.Clique.Peel.update_ok",
    "Gbbs.Clique.Peel.peel_refuted"
   ],
   "note": "The counts are exact in all cases that do not go out of bounds. For triangles with a single active vertex update_idxs can overflow (peel_refuted). DG is the filtered graph (filter = true); counts are unbounded numbers; the spaces are those allocated by the call (reuse across calls is C104)."
  },
  {
   "property": "C122",
   "status": "partial",
   "theorems": [
    "Gbbs.Clique.Peel.peel_partial",
    "Gbbs.Clique.Peel.peel_ends",
    "Gbbs.Clique.Peel.peel_refuted"
   ],
   "note": "Whenever Peel returns the result is right, and for k >= 3 it returns after at most n rounds. False for triangles (k = 2): with one vertex in a bucket, update_idxs, which has max_deg places, can be written past its end."
  },
  {
   "property": "C123",
   "status": "partial",
   "theorems": [
    "Gbbs.Clique.Peel.approx_partial",
    "Gbbs.Clique.Peel.approx_ends",
    "Gbbs.Clique.Peel.approx_refuted"
   ],
   "note": "The approximation from below holds; the value can exceed the largest density by a factor of up to k + 1, because rounds after the first do not divide the sum of the counts. double is modelled as exact."
  },
  {
   "property": "C124",
   "status": "partial",
   "theorems": [
    "Gbbs.Convert.C124_symmetric_unweighted",
    "Gbbs.Convert.C124_symmetric_int",
    "Gbbs.Convert.C124_directed_unweighted",
    "Gbbs.Convert.C124_directed_int",
    "Gbbs.Convert.C124_weights_lost"
   ],
   "note": "Holds for the functions. The program itself is instantiated only for graphs without weights, so the README's compressor -s -w loses the weights (C124_weights_lost)."
  },
  {
   "property": "C125",
   "status": "partial",
   "theorems": [
    "Gbbs.Convert.C125_converter_partial",
    "Gbbs.Convert.C125_directed_partial",
    "Gbbs.Convert.C125_directed_int_partial",
    "Gbbs.Convert.C125_directed_blocksize",
    "Gbbs.Convert.C125_blocksize",
    "Gbbs.Convert.C125_truncated",
    "Gbbs.Convert.C125_small",
    "Gbbs.Convert.C125_default_encoding",
    "Gbbs.Convert.C125_degree",
    "Gbbs.Convert.C125_degree_ub"
   ],
   "note": "Holds for bytepd-amortized with more than 30 vertices if the block size is 1000 or no degree exceeds the block size and 1000. False with the default block size of 256 for degrees 257..1000, for 2..24 and 26..30 vertices, for the default encoding, and for -enc degree. For directed graphs, which are written without batches, it holds for any number of vertices under the same condition on the block size, and fails for the same degrees in either direction."
  },
  {
   "property": "C126",
   "status": "partial",
   "theorems": [
    "Gbbs.Convert.C126_symmetric",
    "Gbbs.Convert.C126_directed",
    "Gbbs.Convert.C126_readme"
   ],
   "note": "Holds for the files of converter -enc binary. The README tells to make them with compressor; such a file is misread whatever the graph (C126_readme). Directed graphs with weights have no binary loader."
  },
  {
   "property": "C127",
   "status": "partial",
   "theorems": [
    "Gbbs.EdgeList.C127_unweighted",
    "Gbbs.EdgeList.C127_weighted",
    "Gbbs.EdgeList.C127_read",
    "Gbbs.EdgeList.C127_read_weighted",
    "Gbbs.EdgeList.C127_double_refuted"
   ],
   "note": "Holds without weights (the only case that the program instantiates) and with int32 weights. False for floating-point weights, which the templates accept: a negative one is printed with 18 characters into 18 places without one for the terminating zero."
  },
  {
   "property": "C128",
   "status": "partial",
   "theorems": [
    "Gbbs.EdgeList.C128_edge_list_partial",
    "Gbbs.EdgeList.C128_read_partial",
    "Gbbs.EdgeList.C128_direct",
    "Gbbs.EdgeList.C128_direct_refuted",
    "Gbbs.EdgeList.C128_matrixmarket_refuted",
    "Gbbs.EdgeList.C128_empty_refuted"
   ],
   "note": "Holds without -direct_sym for graphs with an arc. With -direct_sym and -matrixmarket_format lines 0 0 follow the edges; the latter has no third column; without arcs the result is undefined."
  },
  {
   "property": "C129",
   "status": "partial",
   "theorems": [
    "Gbbs.EdgeList.C129_partial",
    "Gbbs.EdgeList.C129_refuted",
    "Gbbs.EdgeList.C129_empty_refuted"
   ],
   "note": "The graph is isomorphic, but the call of std::sort gets an empty range, so lists are sorted only if the permutation preserves their order. Undefined without arcs."
  },
  {
   "property": "C130",
   "status": "proved",
   "theorems": [
    "Gbbs.EdgeList.C130_unweighted",
    "Gbbs.EdgeList.C130_weighted",
    "Gbbs.EdgeList.C130_truncated"
   ],
   "note": "istream extraction in the C locale is modelled. A vertex of 2^32 or more ends the reading silently (C130_truncated). float weights are not modelled."
  },
  {
   "property": "C131",
   "status": "partial",
   "theorems": [
    "Gbbs.EdgeList.C131_directed_partial",
    "Gbbs.EdgeList.C131_only_loops_refuted"
   ],
   "note": "Holds if the list is not only self loops; else the vertex data is a null pointer for one vertex."
  },
  {
   "property": "C132",
   "status": "partial",
   "theorems": [
    "Gbbs.EdgeList.C132_symmetric_partial",
    "Gbbs.EdgeList.C132_directed_partial"
   ],
   "note": "Files with at least one edge that is not a loop (C24, C131); without weights (with weights see C26 and C56)."
  },
  {
   "property": "C133",
   "status": "partial",
   "theorems": [
    "Gbbs.AM.C133_amortized_iter_int",
    "Gbbs.AM.C133_amortized_iter_unweighted",
    "Gbbs.AM.C133_filter_iter_past_end_wrong"
   ],
   "note": "All values, has_next of iter, and the encoding through filter_iter are proved. filter_iter has no has_next, and next after the last accepted entry returns a rejected one (C133_filter_iter_past_end_wrong)."
  },
  {
   "property": "C134",
   "status": "partial",
   "theorems": [
    "Gbbs.AM.C134_amortized_intersect_partial",
    "Gbbs.AM.C134_amortized_intersect_packed_wrong"
   ],
   "note": "Proved for freshly encoded lists when defined (the iterator reads one entry past its list, as in C49). False after packing: simple_iter computes the number of blocks from the degree instead of the virtual degree."
  },
  {
   "property": "C135",
   "status": "partial",
   "theorems": [
    "Gbbs.Rmat.C135_rmat_partial",
    "Gbbs.Rmat.C135_vertex_out_of_range",
    "Gbbs.Rmat.C135_period",
    "Gbbs.Rmat.C135_large_undefined",
    "Gbbs.Rmat.C135_first_edge_ignores_seed"
   ],
   "note": "The bits and the range are proved for powers of two. False otherwise: endpoints n or more, the edges repeat after 2^31, n = 0 and n > 2^31 are undefined, the first number does not depend on the seed. The distribution of the hash is not modelled."
  },
  {
   "property": "C136",
   "status": "partial",
   "theorems": [
    "Gbbs.Barabasi.C136_barabasi_partial",
    "Gbbs.Barabasi.C136_self_loop",
    "Gbbs.Barabasi.C136_multi_edge",
    "Gbbs.Barabasi.C136_vertex_out_of_range",
    "Gbbs.Barabasi.C136_zero_undefined"
   ],
   "note": "Shape, range for e < n and connectivity are proved when the draws end. The graph is not simple, e >= n gives vertices out of range, n = 0 is undefined."
  },
  {
   "property": "C137",
   "status": "partial",
   "theorems": [
    "Gbbs.Kth.C137_kth_smallest_partial",
    "Gbbs.Kth.C137_kth_pivots_irrelevant",
    "Gbbs.Kth.C137_kth_undefined"
   ],
   "note": "Proved for k < n. For k >= n the code computes a remainder by zero."
  },
  {
   "property": "C138",
   "status": "partial",
   "theorems": [
    "Gbbs.Cli.C138_options_partial",
    "Gbbs.Cli.C138_numbers_partial",
    "Gbbs.Cli.C138_main_partial",
    "Gbbs.Cli.C138_value_taken_as_flag",
    "Gbbs.Cli.C138_flag_after_file",
    "Gbbs.Cli.C138_missing_value",
    "Gbbs.Cli.C138_negative_long",
    "Gbbs.Cli.C138_not_a_number",
    "Gbbs.Cli.C138_double_uninitialised"
   ],
   "note": "Proved when no value is spelled like an option and numbers fit. The failures outside are proved one by one."
  },
  {
   "property": "C139",
   "status": "partial",
   "theorems": [
    "Gbbs.LTBatch.C139_sound_partial",
    "Gbbs.LTBatch.C139_first_batch_partial",
    "Gbbs.LTBatch.C139_streams_fail",
    "Gbbs.LTBatch.C139_first_batch_fails",
    "Gbbs.LTBatch.C139_flag_stays"
   ],
   "note": "Vertices with the same root are connected, for all variants. The first batch is exact for parent_connect and extended_connect with full_shortcut and no alteration. False for every variant after several batches, and in the first batch for simple_shortcut without alteration and connect or parent_connect. Open: the first batch for the other variants, termination."
  },
  {
   "property": "C140",
   "status": "partial",
   "theorems": [
    "Gbbs.Clique.C140_spaces_partial",
    "Gbbs.Clique.C140_split_partial",
    "Gbbs.Clique.C140_intersection_partial",
    "Gbbs.Clique.C140_neighborhood_partial",
    "Gbbs.Clique.C140_split_divides_by_zero",
    "Gbbs.Clique.C140_split_low_degrees",
    "Gbbs.Clique.C140_intersection_races",
    "Gbbs.Clique.C140_intersection_complete",
    "Gbbs.Clique.C140_neighborhood_no_counts",
    "Gbbs.Clique.C140_other_spaces"
   ],
   "note": "Exact for -space 6 if the directed graph has two arcs in a row (else the program divides by zero), for -space 2 if out-degrees are below 10000 (else a data race), for -space 3 if out-degrees are below 65536 (and no per-vertex counts). Missing: compressed graphs for -space 2, space reuse between calls (C104)."
  },
  {
   "property": "C141",
   "status": "partial",
   "theorems": [
    "Gbbs.Clique.C141_sparse_count_partial",
    "Gbbs.Clique.C141_mean",
    "Gbbs.Clique.C141_default_colours",
    "Gbbs.Clique.C141_cut_colours"
   ],
   "note": "Exact for 1 <= c < 2^32 and space types 2, 3, 5. False for the default --colors 0 (result 0) and for multiples of 2^32 (division by zero). Missing: rounding in pow, the hash function."
  },
  {
   "property": "C142",
   "status": "partial",
   "theorems": [
    "Gbbs.EdgeMapC.C142_sparse_partial",
    "Gbbs.EdgeMapC.C142_packed_graph_partial",
    "Gbbs.EdgeMapC.C142_bytepd_partial",
    "Gbbs.EdgeMapC.C142_bytepd_loses_edges",
    "Gbbs.EdgeMapC.C142_bytepd_reached",
    "Gbbs.EdgeMapC.C142_returns_targets"
   ],
   "note": "Holds for bytepd_amortized with entries of at most 16 bytes, also after packing. For bytepd it holds if a vertex of the frontier has a degree other than 0 and 1000, and is false for all other frontiers with an edge: all edges are lost. Missing: entries over 16 bytes (C18), 32-bit sums of the blocks."
  },
  {
   "property": "C143",
   "status": "partial",
   "theorems": [
    "Gbbs.Verify.C143_coloring",
    "Gbbs.Verify.C143_coloring_not_run",
    "Gbbs.Verify.C143_mis",
    "Gbbs.Verify.C143_mis_loop",
    "Gbbs.Verify.C143_mis_run",
    "Gbbs.Verify.C143_verify_mis_asserts",
    "Gbbs.Verify.C143_verify_mis_release",
    "Gbbs.Verify.C143_matching_partial",
    "Gbbs.Verify.C143_matching_release",
    "Gbbs.Verify.C143_matching_non_edges",
    "Gbbs.Verify.C143_forest_decides",
    "Gbbs.Verify.C143_forest_partial",
    "Gbbs.Verify.C143_forest_accepts_cycle",
    "Gbbs.Verify.C143_forest_accepts_non_edges"
   ],
   "note": "Holds for verify_coloring (which no command line runs) and verify_MaximalIndependentSet on simple graphs, for verify_mis and (for lists of edges) verify_matching only in builds with assertions, and for check_spanning_forest on acyclic lists of edges of the graph. False otherwise, each with a theorem."
  },
  {
   "property": "C144",
   "status": "partial",
   "theorems": [
    "Gbbs.UFBatch.C144_batches",
    "Gbbs.UFBatch.C144_batches_early_partial",
    "Gbbs.UFBatch.C144_reordered_queries",
    "Gbbs.UFBatch.C144_mixed_queries_partial",
    "Gbbs.UFBatch.C144_early_queries_partial",
    "Gbbs.UFBatch.C144_mixed_wrong_no",
    "Gbbs.UFBatch.C144_find_compress_uf_partial",
    "Gbbs.UFBatch.C144_find_compress_uf_not_labels"
   ],
   "note": "Connectivity after batches and queries of reordered batches are exact. Answers yes of other batches are right; answers no can be wrong even for edges of earlier batches. find_compress_uf returns a forest, not labels. UniteEarly only from labels that do not exceed the vertices; splice_atomic is not covered."
  },
  {
   "property": "C145",
   "status": "partial",
   "theorems": [
    "Gbbs.RelabelG.C145_uncompressed",
    "Gbbs.RelabelG.C145_compressed",
    "Gbbs.RelabelG.C145_clique",
    "Gbbs.RelabelG.C145_core_perm",
    "Gbbs.RelabelG.C145_core_inverse",
    "Gbbs.RelabelG.C145_core_refuted",
    "Gbbs.RelabelG.C145_degree",
    "Gbbs.RelabelG.C145_ties"
   ],
   "note": "relabel_graph is proved for both formats (compressed: graphs without parallel edges). Order type 3 is an order by degrees; order type 2 returns the sorted vertices instead of their ranks and is not an order by core numbers. Order types 0 and 1 are C65 to C67."
  },
  {
   "property": "C146",
   "status": "partial",
   "theorems": [
    "Gbbs.Own.C146_values",
    "Gbbs.Own.C146_noleak",
    "Gbbs.Own.C146_copy",
    "Gbbs.Own.C146_pack_refuted",
    "Gbbs.Own.C146_move_null_refuted",
    "Gbbs.Own.C146_move_dangling_refuted",
    "Gbbs.Own.C146_move_leak_refuted",
    "Gbbs.Own.C146_copy_packed_refuted",
    "Gbbs.Own.C146_copy_moved_refuted",
    "Gbbs.Own.C146_copy_compressed_refuted",
    "Gbbs.Own.C146_copy_bytes_refuted"
   ],
   "note": "Proved for programs that do not move copies, do not change m of a copy and do not copy packed or compressed graphs. Refuted for these: the deletion function of a copy uses the members of the object at its old address, and copies take m elements of the edge array."
  },
  {
   "property": "C147",
   "status": "partial",
   "theorems": [
    "Gbbs.EdgeL.C147_edges",
    "Gbbs.EdgeL.C147_overflow_refuted",
    "Gbbs.EdgeL.C147_roundtrip",
    "Gbbs.EdgeL.C147_asymmetric",
    "Gbbs.EdgeL.C147_in_out",
    "Gbbs.EdgeL.C147_reduce"
   ],
   "note": "Proved when the number of edges fits the offset type; for to_edge_array without GBBSLONG (as in the Bazel build) it is refuted for 2^32 edges and more. The round trip needs equal weights in both directions, n supplied and an edge (C22, C23, C56 say why)."
  },
  {
   "property": "C148",
   "status": "partial",
   "theorems": [
    "Gbbs.Hash.Ops.C148_seq",
    "Gbbs.Hash.Ops.C148_room",
    "Gbbs.Hash.Ops.C148_entries_refuted",
    "Gbbs.Hash.Ops.C148_reuse_refuted",
    "Gbbs.Hash.Ops.C148_check",
    "Gbbs.Hash.Ops.C148_check_noabort",
    "Gbbs.Hash.Ops.C148_check_returns",
    "Gbbs.Hash.Ops.C148_resize",
    "Gbbs.Hash.Ops.C148_resize_foreign_refuted",
    "Gbbs.Hash.Ops.C148_resize_overflow_refuted"
   ],
   "note": "Proved for lookups and for insert_check. Refuted: entries and map still see marked entries, with the key empty_key - 1; marked places are never reused, so a table without entries can be full; resize drops the entries of a table over foreign memory, and computes its size in int. insert_f is the update of the additive map (C55)."
  },
  {
   "property": "C149",
   "status": "partial",
   "theorems": [
    "Gbbs.WidestBF.C149_widest",
    "Gbbs.WidestBF.C149_nonneg",
    "Gbbs.WidestBF.C149_negative_refuted",
    "Gbbs.WidestBF.C149_update_refuted"
   ],
   "note": "Proved for all weights (-1 and the bottlenecks) and, with weights that are not negative, as the greatest bottleneck. Refuted: with negative weights -1 does not mean unreachable; without the flag dense_forward the result is wrong, because update compares the wrong way round. Termination of the retries of write_max is not proved."
  },
  {
   "property": "C150",
   "status": "partial",
   "theorems": [
    "Gbbs.Scan.C150_distance",
    "Gbbs.Scan.C150_twins",
    "Gbbs.Scan.C150_unique",
    "Gbbs.Scan.boxWrites_eq",
    "Gbbs.Scan.bits_some",
    "Gbbs.Scan.hash_inb",
    "Gbbs.Scan.side_exact",
    "Gbbs.Scan.C150_float_refuted",
    "Gbbs.Scan.C150_wraps",
    "Gbbs.Scan.C150_no_samples"
   ],
   "note": "Proved for num_samples >= 1 if the number of vertices that need random numbers times num_samples is below 2^32; refuted above (C150_wraps: 131072 vertices and 32768 samples read from an empty array). Equal neighbourhoods give distance 0 in exact arithmetic; refuted for float, whose sums depend on their order (C150_float_refuted), for some random numbers. The Box-Muller transform, the division and the cosine are not modelled; the edges with an end of low degree are in C108."
  },
  {
   "property": "C151",
   "status": "partial",
   "theorems": [
    "Gbbs.Mutate.C151_sample",
    "Gbbs.Mutate.C151_count",
    "Gbbs.Mutate.C151_pack",
    "Gbbs.Mutate.C151_tmp",
    "Gbbs.Mutate.C151_two_refuted",
    "Gbbs.Mutate.C151_count_two_refuted"
   ],
   "note": "Proved for predicates with values 0 and 1 on uncompressed vertices. Refuted for the value 2, which selects an edge in filter_edges: sizes are sums of values, and the gaps are returned as edges from 0 to 0. parlay::filter_out is trusted."
  },
  {
   "property": "C152",
   "status": "partial",
   "theorems": [
    "Gbbs.Frequent.C152_frequent",
    "Gbbs.Frequent.C152_majority",
    "Gbbs.Frequent.C152_const",
    "Gbbs.Frequent.C152_empty_refuted",
    "Gbbs.Frequent.C152_zero_refuted",
    "Gbbs.Frequent.C152_loop_refuted",
    "Gbbs.Frequent.C152_insert",
    "Gbbs.Frequent.C152_annotate",
    "Gbbs.Frequent.C152_annotate_refuted"
   ],
   "note": "Proved for 1 to 2^31 - 1 samples of a non-empty sequence of at most 2^32 labels, and for ratios in (0, 1] with at least one vertex. Refuted for an empty sequence (out-of-bounds read; the samplers do not check for it), for no samples, for 2^32 samples or more (the loop does not end) and for queries on no vertices. How likely the label is to be the most frequent one is not treated; the fraction is given as a count, before its division in double precision."
  },
  {
   "property": "C153",
   "status": "partial",
   "theorems": [
    "Gbbs.Ptr.C153_sym",
    "Gbbs.Ptr.C153_independent",
    "Gbbs.Ptr.C153_asym",
    "Gbbs.Ptr.C153_from_edges"
   ],
   "note": "Proved for uncompressed vertices. Weights of vertices and the deletion function of copies, which captures this as in C146, are not in this model; from_edges is treated for symmetric graphs with the number of vertices supplied (see C23) and at least one edge."
  },
  {
   "property": "C154",
   "status": "partial",
   "theorems": [
    "Gbbs.Counter.C154_sum",
    "Gbbs.Counter.C154_sum_all",
    "Gbbs.Counter.C154_slots",
    "Gbbs.Counter.C154_same_id_refuted",
    "Gbbs.Counter.C154_max_partial",
    "Gbbs.Counter.C154_max_again",
    "Gbbs.Counter.C154_max_refuted"
   ],
   "note": "The sum counter is right if the threads have different worker ids; with equal ids an update can be lost (C154_same_id_refuted). The maximum counter starts at 0: if all values are negative it returns 0, which is none of them (C154_max_refuted). Sums of floating-point numbers, which depend on the order, are not covered."
  },
  {
   "property": "C155",
   "status": "proved",
   "theorems": [
    "Gbbs.Compact.C155_compact",
    "Gbbs.Compact.C155_idem",
    "Gbbs.Compact.C155_bound"
   ],
   "note": "C155_bound: a cluster id of n or more, which the documentation excludes, is an access out of bounds."
  },
  {
   "property": "C156",
   "status": "proved",
   "theorems": [
    "Gbbs.AM.C156_amortized_filter_int",
    "Gbbs.AM.C156_amortized_filter_unweighted",
    "Gbbs.AM.C156_amortized_block_bound"
   ],
   "note": ""
  },
  {
   "property": "C157",
   "status": "partial",
   "theorems": [
    "Gbbs.AM.C157_filter_edges_compressed_partial",
    "Gbbs.AM.C157_filter_edges_unweighted_partial",
    "Gbbs.AM.C157_no_output_partial",
    "Gbbs.AM.C157_filter_all_sample_unweighted",
    "Gbbs.AM.C157_filter_all_edges_compressed",
    "Gbbs.AM.C157_sample_edges_compressed",
    "Gbbs.AM.C157_encoded_int"
   ],
   "note": "filter_all_edges and sample_edges (predicates with values 0 and 1) are proved in full. filter_edges: vertices with exactly 100 blocks (virtual degree 99001 to 100000) that keep some but not all of their edges are excluded, since pack overruns its stack array there (C51); with the flag no_output the graph is changed in the same way, but the returned array is uninitialised (C157_no_output_partial)."
  },
  {
   "property": "C158",
   "status": "partial",
   "theorems": [
    "Gbbs.Tri.C158_triangle_any",
    "Gbbs.Tri.C158_same_count",
    "Gbbs.Tri.C158_positions_bound",
    "Gbbs.Tri.C158_kcore_orientation_refuted"
   ],
   "note": "The counts are proved for every ordering that returns (Barenboim-Elkin need not, C67). The orientation with kcore is refuted: the list of vertices in degeneracy order is used as if it were the list of ranks; C158_positions_bound proves the bound for the positions in that order, which is what the code should use."
  },
  {
   "property": "C159",
   "status": "partial",
   "theorems": [
    "Gbbs.Stergiou.C159_labels",
    "Gbbs.Stergiou.C159_two_rounds",
    "Gbbs.Stergiou.C159_terminates",
    "Gbbs.Stergiou.C159_shortcut",
    "Gbbs.Stergiou.C159_components_partial",
    "Gbbs.Stergiou.C159_refuted"
   ],
   "note": "Refuted: rounds is never incremented, so previous_parents stays all zero and every vertex with a neighbour gets the label 0. The labels are right exactly if every vertex with a neighbour is connected to vertex 0 (C159_components_partial). Runs after sampling are not covered."
  },
  {
   "property": "C160",
   "status": "partial",
   "theorems": [
    "Gbbs.IODirect.C160_requests",
    "Gbbs.IODirect.C160_exact_partial",
    "Gbbs.IODirect.C160_refuted"
   ],
   "note": "Refuted: of a file of at least two whole pages and at most 2^30 bytes only the first page is read, because the loop tests sz + read_size < fsize and the last read asks for one page only. C160_exact_partial states exactly for which lengths all bytes are read. Short reads and failing system calls are not modelled."
  },
  {
   "property": "C161",
   "status": "proved",
   "theorems": [
    "Gbbs.Bicc.C161_label",
    "Gbbs.Bicc.C161_count",
    "Gbbs.Bicc.C161_reps"
   ],
   "note": "The text file between the two programs and the sampled table of component sizes are not modelled."
  }
 ]
}