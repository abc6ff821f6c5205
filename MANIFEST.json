{
 "claims": [
  {
   "property": "C01",
   "status": "proved",
   "theorems": [
    "NW.EdgeList.edgelist_records_pushes",
    "NW.EdgeList.edgelist_history_aborts_iff",
    "NW.EdgeList.edgelist_ofList"
   ],
   "note": ""
  },
  {
   "property": "C02",
   "status": "partial",
   "theorems": [
    "NW.EdgeList.edgelist_num_vertices_partial",
    "NW.BiEdgeList.biedgelist_num_vertices_partial",
    "NW.EdgeList.edgelist_cardinality_wraps",
    "NW.EdgeList.edgelist_cardinality_wraps_every_width"
   ],
   "note": "false for the largest id of the vertex id type (wrap-around); proved for all smaller ids"
  },
  {
   "property": "C03",
   "status": "proved",
   "theorems": [
    "NW.Bin.edgelist_binary_roundtrip",
    "NW.Bin.biedgelist_binary_roundtrip",
    "NW.Bin.imageOf_injective"
   ],
   "note": ""
  },
  {
   "property": "C04",
   "status": "partial",
   "theorems": [
    "NW.EdgeList.edgelist_eq_exact_partial",
    "NW.EdgeList.edgelist_eq_prefix",
    "NW.EdgeList.edgelist_eq_oob",
    "NW.EdgeList.edgelist_eq_characterised"
   ],
   "note": "false for lists of different length: prefixes compare equal and a shorter right operand is read out of bounds"
  },
  {
   "property": "C05",
   "status": "partial",
   "theorems": [
    "NW.Bin.csr_binary_roundtrip_index64",
    "NW.Bin.csr_binary_roundtrip_index32_partial",
    "NW.Bin.csr_binary_index32_clobbers",
    "NW.Bin.adjacency_binary_roundtrip_index64"
   ],
   "note": "proved for 8-byte index types; false for the default 4-byte index type, whose header read overwrites a pointer"
  },
  {
   "property": "C06",
   "status": "proved",
   "theorems": [
    "NW.Csr.csr_directed_build",
    "NW.Csr.csr_directed_build_history",
    "NW.Csr.exists_oracles"
   ],
   "note": ""
  },
  {
   "property": "C07",
   "status": "proved",
   "theorems": [
    "NW.Csr.csr_undirected_build",
    "NW.Csr.csr_undirected_symmetric"
   ],
   "note": ""
  },
  {
   "property": "C08",
   "status": "partial",
   "theorems": [
    "NW.Csr.csr_outer_in_bounds_partial",
    "NW.Csr.csr_outer_iff",
    "NW.Csr.csr_outer_reads_past_end",
    "NW.Csr.csr_outer_ofVectors"
   ],
   "note": "false for every adjacency built from an edge list: the outer iteration reads one row past the end; exact condition proved"
  },
  {
   "property": "C09",
   "status": "proved",
   "theorems": [
    "NW.Csr.degrees_directed_all_schedules",
    "NW.Csr.degrees_undirected_all_schedules",
    "NW.Csr.csr_degrees"
   ],
   "note": ""
  },
  {
   "property": "C10",
   "status": "proved",
   "theorems": [
    "NW.Csr.csr_source"
   ],
   "note": ""
  },
  {
   "property": "C100",
   "status": "partial",
   "theorems": [
    "NW.JonesExp.coloring2_partial",
    "NW.JonesExp.coloring2_improper"
   ],
   "note": "termination without a fault is proved; different colours are refuted on every graph with an edge that is stored in both directions"
  },
  {
   "property": "C101",
   "status": "partial",
   "theorems": [
    "NW.Splice.union_by_splicing_partial",
    "NW.Splice.union_by_splicing_roots",
    "NW.Splice.union_by_splicing_splits",
    "NW.Splice.reset_all",
    "NW.Splice.reset_past_end"
   ],
   "note": "termination, soundness and the last call are proved; that elements once connected stay together is refuted"
  },
  {
   "property": "C102",
   "status": "proved",
   "theorems": [
    "NW.Splice.compact_correct"
   ],
   "note": "for the overload without an argument; the other one uses find, which is wrong (see the property on disjoint_set)"
  },
  {
   "property": "C103",
   "status": "partial",
   "theorems": [
    "NW.MmFile.open_correct",
    "NW.MmFile.parts_partial",
    "NW.MmFile.approx_exact",
    "NW.MmFile.blank_line_duplicates",
    "NW.MmFile.comment_after_blank_never_ends",
    "NW.MmFile.missing_newline"
   ],
   "note": "proved for files with a newline after every line and the sizes right behind the comments; refuted for files with a blank line before the sizes"
  },
  {
   "property": "C104",
   "status": "partial",
   "theorems": [
    "NW.Bench.build_degrees_correct",
    "NW.Bench.random_sources_partial",
    "NW.Bench.random_sources_out_of_bounds",
    "NW.Bench.random_sources_never_end",
    "NW.Bench.random_sources_dead_end"
   ],
   "note": "proved as long as the generator gives vertices; refuted when it gives the number of vertices, which its range includes"
  },
  {
   "property": "C105",
   "status": "proved",
   "theorems": [
    "NW.Bench.load_graph_binary",
    "NW.Bench.load_graph_text",
    "NW.Bench.load_graph_directed",
    "NW.Bench.load_graph_undirected",
    "NW.Bench.load_sources_correct"
   ],
   "note": "composition of the round trip of serialize and of the readers with the test of the first word"
  },
  {
   "property": "C106",
   "status": "proved",
   "theorems": [
    "NW.BcWork.worklist_serial_correct",
    "NW.BcWork.worklist_serial_no_parallel",
    "NW.BcWork.worklist_serial_parallel_edges",
    "NW.BcWork.worklist_serial_empty"
   ],
   "note": "the path counts must fit their type; rounding is not modelled; with parallel edges the scores are those of the graph without them"
  },
  {
   "property": "C107",
   "status": "partial",
   "theorems": [
    "NW.BcAsync.search_partial",
    "NW.BcAsync.search_gives_partial",
    "NW.BcAsync.back_partial",
    "NW.BcAsync.single_edge_lost",
    "NW.BcAsync.single_edge_zero",
    "NW.BcAsync.worklist_wrong",
    "NW.BcAsync.self_loop_deadlock"
   ],
   "note": "the full claim is false: the last item is always lost (single_edge_lost, worklist_wrong) and loops deadlock (self_loop_deadlock); proved are termination and freedom of deadlock without loops, exactness of the search when the lost items would change nothing, and the all-or-nothing scores of the way back. The treatment of an item under its locks is one step; the unlocked read of a level is not modelled as a race"
  },
  {
   "property": "C108",
   "status": "partial",
   "theorems": [
    "NW.BcNoAbs.one_source_correct_partial",
    "NW.BcNoAbs.search_gives_partial",
    "NW.BcNoAbs.back_gives",
    "NW.BcNoAbs.never_returns",
    "NW.BcNoAbs.reads_past_the_end",
    "NW.BcNoAbs.leftover_edges_wrong",
    "NW.BcNoAbs.loop_hangs"
   ],
   "note": "the full claim is false: every call with a source reads past the end of the buckets (never_returns, reads_past_the_end), loops deadlock in parallel rounds (loop_hangs) and a second source gives wrong scores (leftover_edges_wrong). Proved, with that read taken as harmless: correctness for one source under every schedule. The treatment of an item under its locks is one step; the reads after the locks have been released belong to the same step"
  },
  {
   "property": "C109",
   "status": "partial",
   "theorems": [
    "NW.TcBench.prepare_correct",
    "NW.TcBench.bench_correct_partial",
    "NW.TcBench.bench_lower_partial",
    "NW.TcBench.bench_lower_reports_zero",
    "NW.TcBench.verifier_correct_partial",
    "NW.TcBench.verifier_out_of_bounds",
    "NW.TcBench.worth_relabeling_safe",
    "NW.TcBench.heuristic_divides_by_zero"
   ],
   "note": "bench_correct_partial covers all versions but 11 (parallel set intersection of the C++ library) without --lower; bench_lower_partial the versions that count over whole rows with --lower. The claim is false for --lower with versions 1, 4 (the default), 5, 7, 8, 9, 12 (bench_lower_reports_zero), for --verify (verifier_out_of_bounds; verifier_correct_partial takes a write into reserved memory as harmless) and for the heuristic on an empty graph. Averages of the heuristic are exact"
  },
  {
   "property": "C11",
   "status": "partial",
   "theorems": [
    "NW.Csr.triangularize_partial",
    "NW.Csr.triangularize_reads_past_end"
   ],
   "note": "false (out-of-bounds read) for structures built from edge lists; proved when end() is right"
  },
  {
   "property": "C110",
   "status": "partial",
   "theorems": [
    "NW.SsspBench.oracle_correct",
    "NW.SsspBench.verifier_accepts_iff",
    "NW.SsspBench.verifier_on_correct_result",
    "NW.SsspBench.version0_verified_iff",
    "NW.SsspBench.version13_verified",
    "NW.SsspBench.verifier_accepts_short",
    "NW.SsspBench.verifier_long_out_of_bounds",
    "NW.SsspBench.sources_in_order",
    "NW.SsspBench.sources_out_of_bounds"
   ],
   "note": "verifier_accepts_iff is the claim for vectors with one entry per vertex that use max()/4 for unreachable. The library's algorithms use max(): verifier_on_correct_result and version0_verified_iff show that a correct result is accepted exactly if every vertex is reachable. Weights are non-negative; distances stay below max()/4"
  },
  {
   "property": "C111",
   "status": "partial",
   "theorems": [
    "NW.CcBench.print_top_n_correct",
    "NW.CcBench.reader_correct",
    "NW.CcBench.bench_correct_partial",
    "NW.CcBench.afforest_out_of_bounds",
    "NW.CcBench.afforest_counts_one_too_many",
    "NW.CcBench.lpcc_splits_component"
   ],
   "note": "bench_correct_partial is the claim for versions 1, 2, 6, 8 and 9 on every file and for 5, 10 and 11 on symmetric files; it also shows that --verify rejects what is right. The other three theorems show how versions 0, 7, 10 and 11 fail. The rows are read as g[u] for u below size(); iterating with begin() and end() reads one row more (C08)"
  },
  {
   "property": "C112",
   "status": "partial",
   "theorems": [
    "NW.AdjList.push_back_builds",
    "NW.AdjList.push_back_in_range_iff",
    "NW.AdjList.of_edge_list_correct",
    "NW.AdjList.target_not_a_vertex",
    "NW.AdjList.target_truncated",
    "NW.AdjList.num_edges_uninitialised",
    "NW.AdjList.num_edges_stale"
   ],
   "note": "push_back_builds and of_edge_list_correct are the claim apart from num_edges() after a push, which is refuted (num_edges_uninitialised, num_edges_stale); push_back_in_range_iff tells exactly when the result is a graph, target_not_a_vertex shows a search that then reads out of bounds. adj_flist from an edge list does not compile"
  },
  {
   "property": "C113",
   "status": "partial",
   "theorems": [
    "NW.Iterators.soa_positions",
    "NW.Iterators.soa_distances",
    "NW.Iterators.csr_positions",
    "NW.Iterators.csr_distances_partial",
    "NW.Iterators.csr_distance_negative",
    "NW.Iterators.csr_equal_across_graphs"
   ],
   "note": "proved for all lengths that fit the index type, the distances for half of them (which for edge lists is no restriction); above that the distance of a compressed graph is refuted. it++ and it-- do not compile and are not modelled"
  },
  {
   "property": "C114",
   "status": "partial",
   "theorems": [
    "NW.BfsBench.bench_correct_partial",
    "NW.BfsBench.bench_correct_symmetric",
    "NW.BfsBench.bench_searches_backwards",
    "NW.BfsBench.bench_unknown_version",
    "NW.BfsBench.bench_source_not_a_vertex"
   ],
   "note": "Every version but 2 (and 1 with more threads than bins) finds a tree of the reversed graph, which the verifier accepts; for symmetric files these are the trees of the file. The code searches against the edges: for the file 0->1 every version reports that 1 is not reached from 0, and this passes verification. An unknown version and a source that is not a vertex access memory out of bounds."
  },
  {
   "property": "C115",
   "status": "partial",
   "theorems": [
    "NW.PrBench.bench_correct_partial",
    "NW.PrBench.bench_no_version",
    "NW.PrBench.bench_not_normalised",
    "NW.PrBench.print_n_ranks_partial",
    "NW.PrBench.print_n_ranks_small"
   ],
   "note": "Versions 1, 2, 4, 6 to 11 and 14 report scores within the bounds of C71 of the unique PageRank vector of the file's edges, in exact arithmetic. Version 0 is commented out and reports zeros; versions 3 and 13 report scores that add up to more than one; for 12 see C93. The ranking is right for ten vertices or more; with fewer, memory is read out of bounds."
  },
  {
   "property": "C116",
   "status": "partial",
   "theorems": [
    "NW.BcBench.bench_correct_partial",
    "NW.BcBench.bench_exact_correct",
    "NW.BcBench.bench_correct_symmetric",
    "NW.BcBench.bench_sources_counted",
    "NW.BcBench.bench_backwards",
    "NW.BcBench.bench_wrong_ranking",
    "NW.BcBench.bench_ends_counted",
    "NW.BcBench.bench_unknown_version"
   ],
   "note": "Version 6 is right for every file; versions 1 and 7 are right for symmetric files, and in general they report the betweenness of the graph with its edges turned round, because the benchmark builds the transposed graph. Versions 0, 3, 4, 5 and 8 count each source in its own score, and so does the verifier. For version 2 see C97. An unknown version makes the verifier read out of bounds."
  },
  {
   "property": "C117",
   "status": "partial",
   "theorems": [
    "NW.DsetOut.history_representatives",
    "NW.DsetOut.for_each_root_index_correct",
    "NW.DsetOut.for_each_root_correct",
    "NW.DsetOut.set_number_never_changes",
    "NW.DsetOut.get_subsets_one_set",
    "NW.DsetOut.get_subsets_partial",
    "NW.DsetOut.compact_sets_partial",
    "NW.DsetOut.compact_sets_wrong",
    "NW.DsetOut.compact_values_partial",
    "NW.DsetOut.compact_values_wrong",
    "NW.DsetOut.join_noop",
    "NW.DsetOut.reset_then_find_never_ends",
    "NW.DsetOut.reset_out_of_bounds",
    "NW.DsetOut.direct_join_correct",
    "NW.DsetOut.all_to_singletons_correct",
    "NW.DsetOut.union_by_size_atomic_partial",
    "NW.DsetOut.union_by_size_atomic_wrong_size"
   ],
   "note": "Representatives and the visits to the roots are right for every history. getSubsets, getCompactDisjSets(nsets) and join use find, which always starts at element 0 (C39): they are right only for elements in the set of 0. getCompactDisjSets() compares raw entries. unionBySizeAtomic is modelled for one thread here; for several see C142."
  },
  {
   "property": "C118",
   "status": "partial",
   "theorems": [
    "NW.Tools.converted_directed",
    "NW.Tools.converted_undirected",
    "NW.Tools.process_edge_list_writes",
    "NW.Tools.read_mm_loaded",
    "NW.Tools.converted_wrong_direction"
   ],
   "note": "Holds if the benchmark reads the file in the direction it was written in. Otherwise load_graph only prints a warning and the edges of a symmetric file are not the same (converted_wrong_direction)."
  },
  {
   "property": "C119",
   "status": "partial",
   "theorems": [
    "NW.Tools.verify_sources_partial",
    "NW.Tools.verify_sources_count",
    "NW.Tools.verify_sources_out_of_bounds"
   ],
   "note": "Provided that the number num_vertices, which the distribution includes, is not drawn too early: otherwise the degrees are read out of bounds."
  },
  {
   "property": "C12",
   "status": "partial",
   "theorems": [
    "NW.Csr.sort_keeps_edges_partial",
    "NW.Csr.sort_rows_characterised",
    "NW.Csr.build_sorted_ids",
    "NW.Csr.sort_detaches_attributes"
   ],
   "note": "false with attributes: only the id column is sorted; proved without attributes, ids proved always"
  },
  {
   "property": "C120",
   "status": "proved",
   "theorems": [
    "NW.Shared.cas_loops_serialise",
    "NW.Shared.write_min_correct",
    "NW.Shared.write_max_correct",
    "NW.Shared.write_add_correct",
    "NW.Shared.mutex_counter_correct",
    "NW.Shared.atomic_counter_correct",
    "NW.Shared.plain_counter_loses"
   ],
   "note": "Interleavings of the atomic accesses, with a strong compare-and-swap as the code uses. plain_counter_loses shows that the plain counting_output_iterator must not be shared; the library uses it in one thread only."
  },
  {
   "property": "C121",
   "status": "proved",
   "theorems": [
    "NW.Times.report_correct",
    "NW.Times.report_aligned"
   ],
   "note": "The times are rational numbers; rounding of the sum of doubles is not modelled."
  },
  {
   "property": "C122",
   "status": "partial",
   "theorems": [
    "NW.Aos.aos_roundtrip",
    "NW.Aos.aos_smaller_type",
    "NW.Aos.aos_larger_type",
    "NW.Aos.aos_equal_characterised",
    "NW.Aos.aos_equal_partial",
    "NW.Aos.aos_equal_wrong"
   ],
   "note": "Saving and loading hold. == is right for arrays of equal length; it says that an array equals any longer one it begins, and reads past the end of a shorter one."
  },
  {
   "property": "C123",
   "status": "proved",
   "theorems": [
    "NW.Aos.histogram_correct",
    "NW.Aos.histogram_out_of_bounds"
   ],
   "note": "For values that are numbers; the overload for tuples does not compile."
  },
  {
   "property": "C124",
   "status": "partial",
   "theorems": [
    "NW.Oracle.oracle_partial",
    "NW.Oracle.Searched.det",
    "NW.Oracle.oracle_unlinked_wrong",
    "NW.Oracle.oracle_alone_out_of_bounds",
    "NW.Oracle.oracle_absent",
    "NW.Oracle.dblp_wrong",
    "NW.Oracle.oracle_dblp_asserts"
   ],
   "note": "Proved for oracle.cpp whenever the chosen name has a link. False of the code otherwise: those not linked get number 0 and an invented line, a chosen name without links makes the search run out of bounds, a name that is not in the data stands for the first one. In dblp.cpp the missing test j > i makes all numbers one too large if a self loop is stored first; oracle+dblp.cpp fails an assertion when it reads its second file. Reading JSON is not modelled."
  },
  {
   "property": "C125",
   "status": "proved",
   "theorems": [
    "NW.Oracle.overlap_list",
    "NW.Oracle.dns_overlap",
    "NW.Oracle.shared_nodup"
   ],
   "note": "The critical sections are executed one after the other, in any order. Reading the Matrix Market file is not part of this model; see C62."
  },
  {
   "property": "C126",
   "status": "partial",
   "theorems": [
    "NW.Oracle.delink_plain",
    "NW.Oracle.delink_page",
    "NW.Oracle.delink_text",
    "NW.Oracle.delink_early_close",
    "NW.Oracle.delink_no_close"
   ],
   "note": "False of the code if there is a ]] before the link; a missing ]] is not noticed."
  },
  {
   "property": "C127",
   "status": "partial",
   "theorems": [
    "NW.Apb.index_loops",
    "NW.Apb.range_loops_partial",
    "NW.Apb.range_loops_wrong",
    "NW.Apb.spmv_loop",
    "NW.Apb.out_degrees_loop",
    "NW.Apb.in_degrees_loop",
    "NW.Apb.spmv_matrix",
    "NW.Apb.spmv_program"
   ],
   "note": "Proved of graphs whose end is where their vertices end. False of the code for graphs built from an edge list, which is how the benchmarks build them: there the end is one further and the loops over the graph, its neighbour range and its edge range read out of bounds."
  },
  {
   "property": "C128",
   "status": "partial",
   "theorems": [
    "NW.Apb.parallel_by_source",
    "NW.Apb.parallel_spmv",
    "NW.Apb.parallel_out_degrees",
    "NW.Apb.pieces_visited",
    "NW.Apb.parallel_in_degrees_partial",
    "NW.Apb.parallel_in_degrees_wrong"
   ],
   "note": "Proved for updates of the source's entry. False of the code for updates of the target's entry (tbb.cpp:159): increments can get lost; what is proved there is that no entry gets too large. Loads and stores are taken to be atomic, one by one."
  },
  {
   "property": "C129",
   "status": "proved",
   "theorems": [
    "NW.Apb.bfs_marks",
    "NW.Apb.dfs_marks",
    "NW.Apb.search_det",
    "NW.Apb.search_bad_seed"
   ],
   "note": "The benchmarks pass the adjacency by target, so what they reach is what can be reached backwards. bfs.cpp:284 and 297 loop over ranges that are modelled elsewhere (C55)."
  },
  {
   "property": "C13",
   "status": "partial",
   "theorems": [
    "NW.Csr.sort_by_degree_partial",
    "NW.Csr.sort_by_degree_out_of_bounds",
    "NW.Csr.permute_by_degree_wrong_rows",
    "NW.Csr.sort_by_degree_unknown_direction"
   ],
   "note": "false unless the sorting permutation is an involution; attributes are detached"
  },
  {
   "property": "C130",
   "status": "partial",
   "theorems": [
    "NW.Stream.stream_edges_prints",
    "NW.Stream.stream_edges_injective",
    "NW.Stream.stream_edges_ignores_stream",
    "NW.Stream.stream_stats_prints",
    "NW.Stream.stream_stats_csr_prints",
    "NW.Stream.stream_csr_prints_partial",
    "NW.Stream.stream_built_partial",
    "NW.Stream.stream_built_wrong",
    "NW.Stream.stream_indices_prints",
    "NW.Stream.stream_indices_empty_wrong",
    "NW.Stream.stream_aos_prints"
   ],
   "note": "Proved in full for stream_indices (of a structure with offsets) and for arrays of structs. False of the code for stream_edges(os), stream(os) and stream_stats(os), which write to std::cout whatever is given; what they write there is right. False for stream() of adjacencies built from an edge list, which read out of bounds; proved for adjacencies with as many rows as their end says."
  },
  {
   "property": "C131",
   "status": "partial",
   "theorems": [
    "NW.Stream.trim_trims",
    "NW.Stream.Trimmed.unique",
    "NW.Stream.provenance_history_partial",
    "NW.Stream.provenance_parts_wrong",
    "NW.Stream.provenance_assign",
    "NW.Stream.provenance_assign_iff",
    "NW.Stream.provenance_assign_self",
    "NW.Stream.provenance_stream",
    "NW.Stream.provenance_stream_newline"
   ],
   "note": "False of the code in three ways: a note with a file is trimmed as a whole, not its parts; assignment appends to what is there; assigning a provenance to itself is undefined unless it is empty. Proved of the rest."
  },
  {
   "property": "C132",
   "status": "partial",
   "theorems": [
    "NW.DfsEdges.dfs_edges_search_partial",
    "NW.DfsEdges.dfs_edges_outcome_partial",
    "NW.DfsEdges.dfs_edges_tree_partial",
    "NW.DfsEdges.depthFirst_reachable",
    "NW.DfsEdges.dfs_edges_isolated_wrong",
    "NW.DfsEdges.dfs_edges_loop_wrong",
    "NW.DfsEdges.dfs_edges_later_loop_wrong"
   ],
   "note": "False of the code for a seed without neighbours (reads past its row), for a seed that is its own first neighbour (the assertion fails at the end) and for another vertex that is entered while it is its own first neighbour. Proved for every graph in which only the seed may be its own neighbour, and not its first one."
  },
  {
   "property": "C133",
   "status": "partial",
   "theorems": [
    "NW.Timer.elapsed_history",
    "NW.Timer.elapsed_partial",
    "NW.Timer.lap_eq",
    "NW.Timer.laps_monotone",
    "NW.Timer.pieces",
    "NW.Timer.print_partial",
    "NW.Timer.life_partial",
    "NW.Timer.showG_small",
    "NW.Timer.showG_large",
    "NW.Timer.elapsed_restart_wrong",
    "NW.Timer.elapsed_clock_wrong",
    "NW.Timer.print_wrong"
   ],
   "note": "False of the code after a start that no stop follows and after the clock was set back (negative times), and for printing a million units or more (six digits are kept). Proved of every other history and number; the error of the printed number is bounded."
  },
  {
   "property": "C134",
   "status": "partial",
   "theorems": [
    "NW.TypeCode.read_banner_iff",
    "NW.TypeCode.read_banner_long_wrong",
    "NW.TypeCode.read_banner_refines",
    "NW.TypeCode.to_str_iff",
    "NW.TypeCode.to_str_wrong",
    "NW.TypeCode.to_str_read_banner",
    "NW.TypeCode.is_valid_partial",
    "NW.TypeCode.is_valid_hermitian_wrong",
    "NW.TypeCode.is_valid_unknown_wrong",
    "NW.TypeCode.array_size_partial",
    "NW.TypeCode.array_size_never_ends"
   ],
   "note": "Proved for banners whose lines and words fit the buffers. False of the code: longer words are written past the buffers; a code that does not begin with M is printed through a pointer that was never set; mm_is_valid accepts Hermitian matrices of integers and letters that stand for nothing; a comment behind a blank line is read forever."
  },
  {
   "property": "C135",
   "status": "partial",
   "theorems": [
    "NW.Soa.soa_history_partial",
    "NW.Soa.soa_constructors",
    "NW.Soa.soa_reads",
    "NW.Soa.soa_move",
    "NW.Soa.soa_copy_short_wrong",
    "NW.Soa.soa_copy_long_wrong",
    "NW.Soa.soa_columns_wrong"
   ],
   "note": "Proved for every sequence of calls in which copy is given as many elements as there are. False of the code: copy of fewer elements keeps the old ones behind them, copy of more elements writes past the end, and the constructors accept columns of different lengths."
  },
  {
   "property": "C136",
   "status": "partial",
   "theorems": [
    "NW.BitOwner.bit_vectors_are_values",
    "NW.BitOwner.bit_vectors_free_partial",
    "NW.BitOwner.bit_vectors_leak_wrong",
    "NW.BitOwner.bit_vectors_swap"
   ],
   "note": "That the vectors are values of their own and that no memory is used after it was freed or freed twice is proved for every sequence of operations; that all memory is freed, for programs that only assign to vectors that have been moved from, as std::swap does. False of the code: move assignment to any other vector never frees the memory that the vector had."
  },
  {
   "property": "C137",
   "status": "partial",
   "theorems": [
    "NW.BenchLog.log_table_partial",
    "NW.BenchLog.log_graph_name",
    "NW.BenchLog.log_graph_wrong",
    "NW.BenchLog.log_branch_wrong",
    "NW.BenchLog.log_git_wrong",
    "NW.BenchLog.log_host_wrong",
    "NW.BenchLog.log_appends",
    "NW.BenchLog.log_directory_wrong"
   ],
   "note": "Proved when everything fits the columns. False of the code: a branch name of ten characters or more runs into the revision; without git the columns are shifted; of a graph whose name has an underscore only what is before it is written; a host name of twenty characters or more is read past its array; if two directories have to be made, there is no log."
  },
  {
   "property": "C138",
   "status": "partial",
   "theorems": [
    "NW.ApbDijkstra.apb_dijkstra_correct_partial",
    "NW.ApbDijkstra.apb_dijkstra_program",
    "NW.ApbDijkstra.apb_dijkstra_line_wrong",
    "NW.ApbDijkstra.apb_dijkstra_endless",
    "NW.ApbDijkstra.apb_dijkstra_seed_wrong"
   ],
   "note": "Proved: the distances, the end of the run and when there is none. False of the code: the fourth variant prints no line; a seed that is not a vertex is a write out of bounds. Weights are integers with exact sums, not doubles."
  },
  {
   "property": "C139",
   "status": "partial",
   "theorems": [
    "NW.ApbExec.exec_product_partial",
    "NW.ApbExec.exec_counter_partial",
    "NW.ApbExec.exec_program_wrong",
    "NW.ApbExec.exec_par_counter_wrong"
   ],
   "note": "Proved for the three variants with a counting iterator, for both policies, and for the third on a graph that ends with its last row. False of the program: the third variant reads out of bounds; with a parallel outer policy it puts rows at wrong positions. Numbers are those of a commutative semiring, not floats."
  },
  {
   "property": "C14",
   "status": "partial",
   "theorems": [
    "NW.Csr.push_back_fill_partial",
    "NW.Csr.push_back_new_vertex_fails",
    "NW.Csr.push_back_out_of_order_wrong",
    "NW.Csr.push_back_nothing_stays_open"
   ],
   "note": "proved for non-decreasing sources that are vertices; false otherwise"
  },
  {
   "property": "C140",
   "status": "partial",
   "theorems": [
    "NW.Imdb.imdb_partial",
    "NW.Imdb.imdb_not_movies_wrong"
   ],
   "note": "Proved if all acting credits are for listed movies and of listed persons. False otherwise: whenever two persons have acting credits for titles that are not movies and never acted in the same movie, the number printed is 1 and the line names the heading of the table."
  },
  {
   "property": "C141",
   "status": "proved",
   "theorems": [
    "NW.PermIter.perm_iter_reads",
    "NW.PermIter.perm_iter_out_of_bounds",
    "NW.PermIter.perm_iter_endless",
    "NW.PermIter.perm_iter_permutes",
    "NW.PermIter.perm_iter_writes"
   ],
   "note": "The base is a position in a vector; difference_type does not overflow."
  },
  {
   "property": "C142",
   "status": "partial",
   "theorems": [
    "NW.DsetPar.concurrent_unions_partial",
    "NW.DsetPar.concurrent_unions_never_found",
    "NW.DsetPar.concurrent_unions_wrong_sets"
   ],
   "note": "Proved under every schedule for calls that do not meet. False of the code otherwise: two runs are shown, one after which find_with_pathcompression never returns and one that leaves the wrong sets. Every access to sets_ is one atomic step."
  },
  {
   "property": "C143",
   "status": "partial",
   "theorems": [
    "NW.BfsCcPar.parallel_ends_partial",
    "NW.BfsCcPar.in_order_runs",
    "NW.BfsCcPar.parallel_one_label",
    "NW.BfsCcPar.parallel_wrong",
    "NW.BfsCc.bfs_cc_sound_partial"
   ],
   "note": "Proved: the end, the absence of faults and the range of the labels, under every schedule; the loop in order is one of the schedules, and there equal labels mean connection (C88). False of the code: on every graph some schedule gives all vertices the same label. Plain accesses that race are taken to be atomic; a search is one step."
  },
  {
   "property": "C144",
   "status": "partial",
   "theorems": [
    "NW.Sssp.dijkstra_any_weights_partial",
    "NW.Sssp.delta_stepping_any_weights_partial",
    "NW.Sssp.delta_stepping_any_weights_outcome_partial",
    "NW.Sssp.delta_stepping_parallel_any_weights_partial",
    "NW.Sssp.weights_wrap_wrong",
    "NW.Sssp.weights_wrap_parallel_wrong"
   ],
   "note": "Proved: the end without a fault, and that entries are weights of walks modulo the number of values. False of the code: a distance that fits the type is reported too small. The parallel delta_stepping is covered for every schedule if its uninitialised flag reads as false."
  },
  {
   "property": "C145",
   "status": "partial",
   "theorems": [
    "NW.SsspSigned.dijkstra_signed",
    "NW.SsspSigned.dijkstra_signed_endless",
    "NW.SsspSigned.dijkstra_signed_source",
    "NW.SsspSigned.delta_stepping_signed_partial",
    "NW.SsspSigned.delta_stepping_walks_partial",
    "NW.SsspSigned.delta_stepping_negative_wrong",
    "NW.SsspSigned.delta_stepping_lost_wrong"
   ],
   "note": "dijkstra: proved. delta_stepping (the sequential overload): proved if no weight is negative, and that entries are weights of walks in any case; with negative weights false of the code, for every graph whose first edge is negative enough, and with a lost vertex as a second witness. Signed overflow is not modelled."
  },
  {
   "property": "C146",
   "status": "partial",
   "theorems": [
    "NW.Bin.edgelist_cut_short_partial",
    "NW.Bin.csr_cut_short_partial",
    "NW.Bin.edgelist_cut_short_wrong",
    "NW.Bin.edgelist_cut_tail_wrong",
    "NW.Bin.csr_cut_short_wrong"
   ],
   "note": "False of the code, with one file cut in four places as witness, and for every edge list without attributes if the file ends among the targets. Proved for every file and every cut: some read of the loader comes short. Missing: what the unchecked loaders return for the other cuts."
  },
  {
   "property": "C15",
   "status": "proved",
   "theorems": [
    "NW.Vov.push_back_fill_rows",
    "NW.Vov.vov_of_edge_list"
   ],
   "note": ""
  },
  {
   "property": "C16",
   "status": "proved",
   "theorems": [
    "NW.EdgeList.uniq_correct",
    "NW.EdgeList.remove_self_loops_correct"
   ],
   "note": ""
  },
  {
   "property": "C17",
   "status": "proved",
   "theorems": [
    "NW.EdgeList.swap_to_triangular_correct"
   ],
   "note": ""
  },
  {
   "property": "C18",
   "status": "proved",
   "theorems": [
    "NW.EdgeList.relabel_by_degree_correct",
    "NW.EdgeList.relabel_ok",
    "NW.EdgeList.relabel_side_ok",
    "NW.EdgeList.relabel_short_degrees_oob"
   ],
   "note": "a caller-supplied degree array that is too short reads out of bounds"
  },
  {
   "property": "C19",
   "status": "partial",
   "theorems": [
    "NW.Labels.property_graph_partial",
    "NW.Labels.index_graph_partial",
    "NW.Labels.unknown_label_attached_to_vertex_0",
    "NW.Labels.unknown_label_no_vertices",
    "NW.Labels.lookup_known"
   ],
   "note": "false for edges with unknown labels, which become edges of vertex 0"
  },
  {
   "property": "C20",
   "status": "partial",
   "theorems": [
    "NW.Labels.bipartite_graph_partial",
    "NW.Labels.bipartite_graphs_correct",
    "NW.Labels.bipartite_graph_right_side_oob",
    "NW.Labels.bipartite_graph_right_side_extra_rows"
   ],
   "note": "false for idx = 1 with sides of different sizes: always sized by the left side"
  },
  {
   "property": "C21",
   "status": "proved",
   "theorems": [
    "NW.join_correct",
    "NW.overlaps_count",
    "NW.join_reads_out_of_bounds"
   ],
   "note": ""
  },
  {
   "property": "C22",
   "status": "proved",
   "theorems": [
    "NW.Bfs.bfs_correct",
    "NW.Bfs.bfs_parents_lead_to_root"
   ],
   "note": "Total correctness of the sequential bfs for every graph with in-range neighbours; n must not exceed the sentinel value."
  },
  {
   "property": "C23",
   "status": "proved",
   "theorems": [
    "NW.Dobfs.dobfs_correct",
    "NW.Dobfs.dobfs_alpha_zero",
    "NW.Sure.outcome",
    "NW.Sure.exists_run",
    "NW.Sure.no_infinite_run"
   ],
   "note": "All interleavings of the claims of the top-down tasks and of the steps of the bottom-up tasks; plain reads and writes of the parent array are taken to be atomic."
  },
  {
   "property": "C24",
   "status": "partial",
   "theorems": [
    "NW.Sssp.dijkstra_partial",
    "NW.Sssp.dijkstra_small_partial",
    "NW.Sssp.dijkstra_large_distance"
   ],
   "note": "Every pop order.  Exact up to the value used as infinity, which is the maximum of the vertex type; distances above it are reported as infinity (proved).  Integer weights without overflow."
  },
  {
   "property": "C25",
   "status": "proved",
   "theorems": [
    "NW.Sssp.delta_stepping_correct",
    "NW.Sssp.Delta.det",
    "NW.Sssp.delta_stepping_zero"
   ],
   "note": "Integer weights such that a path through all vertices does not overflow; floating point is not modelled."
  },
  {
   "property": "C26",
   "status": "partial",
   "theorems": [
    "NW.Sssp.m1_partial",
    "NW.Sssp.m1_result",
    "NW.Sssp.m1_wrong"
   ],
   "note": "False whenever another vertex can be reached: nothing is ever relaxed."
  },
  {
   "property": "C27",
   "status": "proved",
   "theorems": [
    "NW.Cc.link_never_merges_others",
    "NW.Cc.link_compress_correct",
    "NW.Cc.compress_all"
   ],
   "note": "Every interleaving of single accesses to the label array, sequentially consistent memory; ids do not wrap."
  },
  {
   "property": "C28",
   "status": "partial",
   "theorems": [
    "NW.Cc.afforest_partial",
    "NW.Cc.afforest_outOfBounds"
   ],
   "note": "False as stated: the loops run over size() + 1 vertices, and every run with at least one neighbour round reads outside the graph (proved).  If the extra rows read as empty, correct for every schedule, round count and sampled label."
  },
  {
   "property": "C29",
   "status": "proved",
   "theorems": [
    "NW.Mis.mis_correct",
    "NW.Mis.mis_greedy",
    "NW.Mis.mis_directed_not_independent"
   ],
   "note": "Symmetric graphs without self loops, as the property says; on directed graphs the result need not be independent (proved)."
  },
  {
   "property": "C30",
   "status": "partial",
   "theorems": [
    "NW.Mis.jp_partial",
    "NW.Mis.jp_not_proper",
    "NW.Mis.firstMissingPositive_correct"
   ],
   "note": "False: only the vertices of one maximal independent set are coloured, the others keep colour 0 (proved).  The least unused colour is found correctly."
  },
  {
   "property": "C31",
   "status": "proved",
   "theorems": [
    "NW.Triangle.triangle_count_correct"
   ],
   "note": "Natural numbers without wrap-around."
  },
  {
   "property": "C32",
   "status": "proved",
   "theorems": [
    "NW.Triangle.triangle_count_parallel",
    "NW.Triangle.triangle_count_parallel_lower",
    "NW.Triangle.triangle_count_no_threads"
   ],
   "note": "The workers share only constant data.  On lower triangular input the result is 0 (proved)."
  },
  {
   "property": "C33",
   "status": "proved",
   "theorems": [
    "NW.Util.intersection_size_multiset",
    "NW.Util.intersection_size_set"
   ],
   "note": ""
  },
  {
   "property": "C34",
   "status": "proved",
   "theorems": [
    "NW.Jaccard.jaccard_correct"
   ],
   "note": "Scores are exact rationals; rounding of the quotient is not modelled."
  },
  {
   "property": "C35",
   "status": "proved",
   "theorems": [
    "NW.SpMat.spMatspMat_correct",
    "NW.SpMat.spMatspMat_reduce"
   ],
   "note": "Any semiring; the second theorem is for arbitrary map and reduce operations."
  },
  {
   "property": "C36",
   "status": "proved",
   "theorems": [
    "NW.SpMat.spMatspMatT_correct"
   ],
   "note": "Any semiring."
  },
  {
   "property": "C37",
   "status": "proved",
   "theorems": [
    "NW.Dsu.union_find_correct",
    "NW.Dsu.union_find_det"
   ],
   "note": ""
  },
  {
   "property": "C38",
   "status": "partial",
   "theorems": [
    "NW.Dsu.kruskal_partial",
    "NW.Dsu.kruskal_outOfBounds"
   ],
   "note": "The code allocates one set per edge.  Proved when every vertex id is less than the number of edges; otherwise every run reads out of bounds (proved)."
  },
  {
   "property": "C39",
   "status": "partial",
   "theorems": [
    "NW.DisjointSet.find_partial",
    "NW.DisjointSet.find_is_root_of_zero",
    "NW.DisjointSet.find_wrong",
    "NW.DisjointSet.union_noop",
    "NW.DisjointSet.unions_never_join",
    "NW.DisjointSet.getSetSize_wrong"
   ],
   "note": "find ignores its argument: it holds only for elements in the set of element 0, and fails for all others."
  },
  {
   "property": "C40",
   "status": "proved",
   "theorems": [
    "NW.Brandes.brandes_bc_exact",
    "NW.Brandes.brandes_bc_normalised",
    "NW.Brandes.brandes_bc_empty"
   ],
   "note": "Scores are exact rationals.  Normalising gives NaN for every vertex when no vertex lies between two others; normalising the scores of the empty graph dereferences the end iterator (both proved)."
  },
  {
   "property": "C41",
   "status": "partial",
   "theorems": [
    "NW.BrandesPar.brandes_bc_parallel_partial",
    "NW.BrandesPar.parScore_of_not_source",
    "NW.BrandesPar.brandes_bc_parallel_source_wrong",
    "NW.BrandesPar.brandes_bc_parallel_integral_wrong",
    "NW.BrandesPar.brandes_bc_parallel_empty",
    "NW.BrandesPar.finish_normalised"
   ],
   "note": "False: a source also gets its own dependency, and integral path counts are divided as integers (both proved).  Proved for all schedules: termination, no fault, and the exact scores, which agree with the sequential ones for vertices that are not sources."
  },
  {
   "property": "C42",
   "status": "proved",
   "theorems": [
    "NW.Bfs.verifier_correct",
    "NW.Bfs.Verifier.det"
   ],
   "note": "The second graph given must be the transpose of the first, as the code assumes; the candidate has one entry per vertex."
  },
  {
   "property": "C43",
   "status": "partial",
   "theorems": [
    "NW.CcVerify.ccVerifier_partial",
    "NW.CcVerify.ccVerifier_always_false"
   ],
   "note": "False: the visited array has one entry too many, so the verifier rejects everything (proved).  With one entry per vertex it accepts exactly the component labellings."
  },
  {
   "property": "C44",
   "status": "partial",
   "theorems": [
    "NW.Util.pow2_ceil_log2_partial",
    "NW.Util.pow2_ceil_log2_asserts",
    "NW.Util.log2_floor"
   ],
   "note": "false for 2^62 < v <= 2^63, where pow2 fails its assertion"
  },
  {
   "property": "C45",
   "status": "proved",
   "theorems": [
    "NW.Util.block_partitions"
   ],
   "note": ""
  },
  {
   "property": "C46",
   "status": "partial",
   "theorems": [
    "NW.Util.parallel_reduce_partial",
    "NW.Util.parallel_reduce_characterised",
    "NW.Util.parallel_reduce_repeats_init"
   ],
   "note": "false unless init is neutral: it is passed as the identity and counted once per stolen sub-range"
  },
  {
   "property": "C47",
   "status": "proved",
   "theorems": [
    "NW.BitVec'.bit_vector_is_a_set",
    "NW.BitVec'.non_zeros_iteration",
    "NW.BitVec'.membersIn_append",
    "NW.BitVec'.mem_membersIn",
    "NW.BitVec'.membersIn_increasing"
   ],
   "note": ""
  },
  {
   "property": "C48",
   "status": "proved",
   "theorems": [
    "NW.Util.fetch_add_linearizes",
    "NW.Util.fetch_add_total"
   ],
   "note": ""
  },
  {
   "property": "C49",
   "status": "partial",
   "theorems": [
    "NW.Util.proxysort_partial",
    "NW.Util.proxysort_empty_aborts"
   ],
   "note": "false for an empty vector, where the assertion fails"
  },
  {
   "property": "C50",
   "status": "proved",
   "theorems": [
    "NW.Ranges.cyclic_range_partitions",
    "NW.Ranges.cyclic_neighbor_range_partitions",
    "NW.Ranges.cyclic_terminates",
    "NW.Ranges.cyclic_splits_beyond_documented_cutoff"
   ],
   "note": "the documented bound on the number of cycles is exceeded by a factor of two"
  },
  {
   "property": "C51",
   "status": "partial",
   "theorems": [
    "NW.Ranges.splittable_range_splits",
    "NW.Ranges.splittable_range_reversed",
    "NW.Ranges.non_zero_range_splits",
    "NW.Ranges.plain_range_splits",
    "NW.Ranges.neighbor_range_splits",
    "NW.Ranges.plain_degree_range_visits",
    "NW.Ranges.edge_range_splits",
    "NW.Ranges.splittable_terminates",
    "NW.Ranges.outerRange_terminates",
    "NW.Ranges.splittable_cutoff_zero_diverges"
   ],
   "note": "partition proved for every split tree; termination false for cutoff 0, proved for every other cutoff"
  },
  {
   "property": "C52",
   "status": "partial",
   "theorems": [
    "NW.Ranges.vertex_range_partial",
    "NW.Ranges.vertex_range_split_repeats",
    "NW.Ranges.vertex_range_always_divisible"
   ],
   "note": "false: splitting copies the whole range and never stops being allowed"
  },
  {
   "property": "C53",
   "status": "proved",
   "theorems": [
    "NW.Ranges.edge_range_enumerates",
    "NW.Ranges.edge_range_splits",
    "NW.Ranges.edge_range_last_row_faults",
    "NW.Ranges.edge_range_of_edge_list_out_of_bounds"
   ],
   "note": "in-bounds rows are the hypothesis; an adjacency built from an edge list violates it in its last outer position"
  },
  {
   "property": "C54",
   "status": "proved",
   "theorems": [
    "NW.Bfs.topdown_bfs_range_correct",
    "NW.Bfs.topdown_bfs_range_outcome"
   ],
   "note": "Total correctness, all graphs with in-range neighbours and all seeds."
  },
  {
   "property": "C55",
   "status": "partial",
   "theorems": [
    "NW.Bfs.bfs_edge_range_partial",
    "NW.Bfs.bfs_edge_range_outcome_partial",
    "NW.Bfs.bfs_edge_range_no_neighbours_faults",
    "NW.Bfs.bfs_edge_range_self_loop_first"
   ],
   "note": "Proved for seeds whose first neighbour is another vertex.  For seeds without neighbours the code reads out of bounds, for seeds whose first neighbour is themselves it yields the self loop: both proved."
  },
  {
   "property": "C56",
   "status": "partial",
   "theorems": [
    "NW.DfsRange.dfs_range_partial",
    "NW.DfsRange.dfs_range_never_ends",
    "NW.DfsRange.dfs_range_sink_loops"
   ],
   "note": "False for every graph: no loop over the range ends normally (proved), and from a seed without out-edges it runs forever (proved).  The partial theorem: when the vertices without out-edges are reachable from the seed, the vertices delivered before the out-of-bounds read are distinct, and all but possibly vertex 0 are delivered."
  },
  {
   "property": "C57",
   "status": "proved",
   "theorems": [
    "NW.Worklist.worklist_order",
    "NW.Worklist.worklist_complete",
    "NW.Worklist.worklist_ends"
   ],
   "note": "The loop ends if the body pushes finitely many items in all."
  },
  {
   "property": "C58",
   "status": "partial",
   "theorems": [
    "NW.Worklist.tbbworklist_partial",
    "NW.Worklist.tbbworklist_loses_last",
    "NW.Worklist.tbbworklist2_partial",
    "NW.Worklist.tbbworklist2_single"
   ],
   "note": "False: the end test looks at the queue after the iterator has taken its item, so one item is never delivered (proved for both classes; the partial theorems show it is exactly one)."
  },
  {
   "property": "C59",
   "status": "partial",
   "theorems": [
    "NW.PathRanges.reverse_path_partial",
    "NW.PathRanges.reverse_path_start_eq_stop",
    "NW.PathRanges.reverse_path_second_empty"
   ],
   "note": "False for start = stop, where start is delivered (proved); a second iteration delivers nothing (proved)."
  },
  {
   "property": "C60",
   "status": "proved",
   "theorems": [
    "NW.PathRanges.random_range_walk",
    "NW.PathRanges.random_range_dead_end",
    "NW.PathRanges.random_range_every_walk"
   ],
   "note": "For every sequence of random numbers; conversely every walk is possible.  The last vertex needs a neighbour as well (proved)."
  },
  {
   "property": "C61",
   "status": "partial",
   "theorems": [
    "NW.DagRange.dag_range_topological_partial",
    "NW.DagRange.dag_range_no_root"
   ],
   "note": "Proved for every non-empty acyclic graph; on the empty graph begin() takes the front of an empty queue (proved)."
  },
  {
   "property": "C62",
   "status": "proved",
   "theorems": [
    "NW.MM.read_mm_directed",
    "NW.MM.read_mm_undirected",
    "NW.MM.read_mm_undirected_plain",
    "NW.MM.read_mm_rejects",
    "NW.MM.read_mm_blank_line"
   ],
   "note": "Numbers fit 64 bits and ids the vertex type.  A blank line before the sizes makes the program use uninitialised sizes (proved)."
  },
  {
   "property": "C63",
   "status": "partial",
   "theorems": [
    "NW.MM.write_read_directed_partial",
    "NW.MM.write_read_symmetric_partial",
    "NW.MM.write_read_symmetric_plain_partial",
    "NW.MM.write_read_undirected_general",
    "NW.MM.write_read_undirected_general_plain"
   ],
   "note": "Proved for directed lists in the general format and undirected lists in the symmetric format, for values that survive printing and reading.  False for undirected lists in the default format: every edge comes back twice (proved)."
  },
  {
   "property": "C64",
   "status": "partial",
   "theorems": [
    "NW.Sssp.delta_stepping_parallel_partial",
    "NW.Sssp.delta_stepping_parallel_uninitialised"
   ],
   "note": "Under every schedule correct if the uninitialised flag reads as false; with the C++ semantics every run on a graph with an edge back to the source is undefined."
  },
  {
   "property": "C65",
   "status": "proved",
   "theorems": [
    "NW.DisjointSet.find_with_pathcompression_correct",
    "NW.DisjointSet.combineBySize_correct",
    "NW.DisjointSet.combineByHeight_correct",
    "NW.DisjointSet.find_with_pathcompression_outOfBounds"
   ],
   "note": "The last theorem: the range check accepts the index one past the end."
  },
  {
   "property": "C66",
   "status": "proved",
   "theorems": [
    "NW.MM.mm_symmetry"
   ],
   "note": ""
  },
  {
   "property": "C67",
   "status": "partial",
   "theorems": [
    "NW.MM.write_read_adjacency_partial",
    "NW.MM.write_adjacency_fails",
    "NW.MM.write_adjacency1_zero_based"
   ],
   "note": "Proved for adjacency<0> that can be iterated.  False for adjacencies constructed from an edge list alone (out-of-bounds read) and for adjacency<1> (zero-based ids), both proved."
  },
  {
   "property": "C68",
   "status": "partial",
   "theorems": [
    "NW.MM.read_mm_vector_partial",
    "NW.MM.read_mm_vector_differs"
   ],
   "note": "False for every non-empty file: each number returned is one less than in the file (proved, with length and order)."
  },
  {
   "property": "C69",
   "status": "partial",
   "theorems": [
    "NW.DagMis.dag_based_mis_partial",
    "NW.DagMis.dag_based_mis_greedy",
    "NW.DagMis.dag_based_mis_independent",
    "NW.DagMis.dag_based_mis_only_roots",
    "NW.DagMis.dag_based_mis_not_maximal",
    "NW.DagMis.dag_based_mis_empty",
    "NW.DagMis.dag_based_mis_loop"
   ],
   "note": "Independent for every initial vector and maximal if every vertex is marked before, on loop-free graphs with a vertex; the result is characterised for every initial vector.  False from a cleared vector (only vertices without an earlier neighbour are marked, proved); the empty graph and a lone loop read the front of an empty queue (proved)."
  },
  {
   "property": "C70",
   "status": "proved",
   "theorems": [
    "NW.Worklist.tbbworklist2_in_order"
   ],
   "note": "The condition on pushes is exactly what the loop body controls."
  },
  {
   "property": "C71",
   "status": "proved",
   "theorems": [
    "NW.PageRank.page_rank_converges",
    "NW.PageRank.Always.outcome",
    "NW.PageRank.page_rank_total",
    "NW.PageRank.page_rank_zero_degree"
   ],
   "note": "Numbers are exact rationals and single accesses atomic (the program has data races on the contributions).  The hypothesis on degrees is needed: a listed vertex of degree zero gives a division by zero under every schedule (proved)."
  },
  {
   "property": "C72",
   "status": "partial",
   "theorems": [
    "NW.BackEdge.back_edge_range_rows",
    "NW.BackEdge.get_back_edge_partial",
    "NW.BackEdge.get_back_edge_of_extra",
    "NW.BackEdge.get_back_edge_absent",
    "NW.BackEdge.back_edge_extra_not_shared"
   ],
   "note": "All of it except the last half sentence, which is false: the extra edge is stored twice, and what is written through get_back_edge is not seen by the loop (proved).  For a pair of vertices without an edge in either direction the call dereferences a past-the-end iterator (proved)."
  },
  {
   "property": "C73",
   "status": "partial",
   "theorems": [
    "NW.MaxFlow.max_flow_partial",
    "NW.MaxFlow.max_flow_int",
    "NW.MaxFlow.max_flow_bounded",
    "NW.MaxFlow.max_flow_not_max",
    "NW.MaxFlow.max_flow_isolated",
    "NW.MaxFlow.max_flow_same",
    "NW.MaxFlow.max_flow_parallel"
   ],
   "note": "Proved over any ordered ring for networks without loops and parallel arcs over a back_edge_range: a flow of the returned value, maximal if the search failed before the limit, and always maximal for integer capacities if the limit is at least the capacity out of the source.  Not maximal otherwise (proved): at most 100000 per iteration; parallel arcs.  An isolated source and source = sink are undefined behaviour (proved).  Floating-point rounding is not modelled."
  },
  {
   "property": "C74",
   "status": "partial",
   "theorems": [
    "NW.Bk.bk_maxflow_partial",
    "NW.Bk.bk_maxflow_int_partial",
    "NW.Bk.bk_not_max",
    "NW.Bk.bk_not_max_extra"
   ],
   "note": "Proved over any ordered ring for networks without loops and parallel edges in which every edge has an opposite one: no undefined behaviour, and the number is the value of a flow within the capacities (so never too large); with integers it also ends.  That the flow is maximal is false (proved with concrete networks): neighbours of an orphan are reactivated by the capacity in the wrong direction, and edges that back_edge_range adds are stored twice.  Floating-point rounding is not modelled."
  },
  {
   "property": "C75",
   "status": "proved",
   "theorems": [
    "NW.BfsEdges.bfs_edge_range3_correct"
   ],
   "note": "For every graph with in-range neighbours and every seed."
  },
  {
   "property": "C76",
   "status": "partial",
   "theorems": [
    "NW.BfsEdges.dijkstra_er_never_returns"
   ],
   "note": "False for every input: the function never returns. Every execution ends in undefined behaviour, because the iterator reads the front of the queue before testing that it has one (or reads past an empty row); distances are modelled without overflow."
  },
  {
   "property": "C77",
   "status": "partial",
   "theorems": [
    "NW.BfsEdges.bottomup_bfs_range_partial",
    "NW.BfsEdges.bottomup_bfs_range_outcome_partial",
    "NW.BfsEdges.bottomup_bfs_range_not_bfs",
    "NW.BfsEdges.bottomup_bfs_range_empty"
   ],
   "note": "Proved: the iteration ends, yields every vertex of the graph exactly once in cyclic order, and with each vertex after the seed a neighbour yielded before, if there is one. That only reachable vertices are yielded and that the order follows the distance is false; an empty graph is out of bounds."
  },
  {
   "property": "C78",
   "status": "partial",
   "theorems": [
    "NW.ConfigModel.configuration_model_partial",
    "NW.ConfigModel.configuration_model_overrun",
    "NW.ConfigModel.configuration_model_sums_differ"
   ],
   "note": "Proved exactly when it works: if the sums agree and no vertex but the last of each set has positive degree the degrees are right for every shuffle; for all other sequences with equal sums the stubs are written out of bounds; different sums give an empty list. The header does not compile as it stands; the function is modelled on its own."
  },
  {
   "property": "C79",
   "status": "partial",
   "theorems": [
    "NW.KCore.k_core_partial",
    "NW.KCore.k_core_number_partial",
    "NW.KCore.k_core_wrong",
    "NW.KCore.k_core_faults_wrong"
   ],
   "note": "Proved for k <= 0 (nothing is removed); for every k, that no pair is reported twice and that the number is that of the vertices that keep an edge or never had one. For positive k the claim is false, with concrete graphs: only what can be reached from vertex 0 is looked at, once, the iterator reports pairs that are not edges, and it reads past the end of the neighbours."
  },
  {
   "property": "C80",
   "status": "proved",
   "theorems": [
    "NW.Triangle.triangle_count_vc",
    "NW.Triangle.triangle_count_v1",
    "NW.Triangle.triangle_count_v15",
    "NW.Triangle.triangle_count_v2",
    "NW.Triangle.triangle_count_v3",
    "NW.Triangle.triangle_count_v4",
    "NW.Triangle.triangle_count_v5",
    "NW.Triangle.triangle_count_v6",
    "NW.Triangle.triangle_count_v7",
    "NW.Triangle.triangle_count_v10",
    "NW.Triangle.triangle_count_v12",
    "NW.Triangle.triangle_count_v13",
    "NW.Triangle.triangle_count_v14",
    "NW.Triangle.triangle_count_edgesplit",
    "NW.Triangle.triangle_count_edgesplit_upper"
   ],
   "note": "One theorem per function, with the sequential set intersection; the two functions under ONE_DIMENSIONAL_EDGE call members that do not exist. Version 12 and 13 add as double, exact below 2^53."
  },
  {
   "property": "C81",
   "status": "partial",
   "theorems": [
    "NW.BiCsr.biadjacency_build_partial",
    "NW.BiCsr.biadjacency_dual",
    "NW.BiCsr.biadjacency_sorted",
    "NW.BiCsr.biadjacency_ofVectors",
    "NW.BiCsr.biadjacency_outer_reads_past_end",
    "NW.BiCsr.biadjacency_undirected_oob"
   ],
   "note": "Iterating over a biadjacency constructed from a list is false: the last position is one row too far, proved for all lists. For undirected lists the construction writes out of bounds, proved whenever an id of the other part is too large."
  },
  {
   "property": "C82",
   "status": "partial",
   "theorems": [
    "NW.MM.read_bi_partial",
    "NW.MM.read_bi_square_rejected",
    "NW.MM.read_bi_symmetric_rejected",
    "NW.MM.write_bi_partial",
    "NW.MM.write_read_bi_partial",
    "NW.MM.write_read_bi_square",
    "NW.MM.write_bi_fails",
    "NW.MM.write_bi1_zero_based"
   ],
   "note": "Square files are rejected, a biadjacency constructed from a list cannot be written, and biadjacency<1> is written with zero-based ids: proved as negations; the rest is proved. Values must survive being printed and read, see Faithful."
  },
  {
   "property": "C83",
   "status": "proved",
   "theorems": [
    "NW.BfsExp.bfs_v6_correct",
    "NW.BfsExp.bfs_levels_correct",
    "NW.BfsExp.bfs_bottom_up_correct",
    "NW.BfsExp.bfs_frontier_once",
    "NW.BfsExp.bfs_frontier_twice"
   ],
   "note": "Plain accesses that race are taken to be atomic. The versions without a claim can enqueue a vertex twice, shown by a run."
  },
  {
   "property": "C84",
   "status": "partial",
   "theorems": [
    "NW.BfsDirExp.bfs_v1_partial",
    "NW.BfsDirExp.bfs_v2_partial",
    "NW.BfsDirExp.flush_concatenates",
    "NW.BfsDirExp.bfs_v2_garbage",
    "NW.BfsDirExp.bfs_threads_oob",
    "NW.BfsDirExp.bfs_threads_fault",
    "NW.BfsDirExp.bfs_v2_end_faults"
   ],
   "note": "Proved with at most as many threads as bins and, for bfs_v2, if the uninitialised bit vector holds no bit but the root's and the end of the transpose is its number of vertices (which it is not if the transpose is built from an edge list: then bfs_v2, if it begins bottom-up, never returns); without these the property is false, shown by runs. Plain accesses that race are taken to be atomic."
  },
  {
   "property": "C85",
   "status": "partial",
   "theorems": [
    "NW.CcExp.ccv1_correct",
    "NW.CcExp.ccv2_correct",
    "NW.CcExp.afforest_correct",
    "NW.CcExp.ccv5_partial",
    "NW.CcExp.ccv5_directed"
   ],
   "note": "ccv1, compute_connected_components_v2 and Afforest are proved in full. ccv5 is proved for symmetric graphs; for directed graphs a run with wrong labels is shown. Plain accesses that race are taken to be atomic."
  },
  {
   "property": "C86",
   "status": "proved",
   "theorems": [
    "NW.SvExp.sv_vertex_correct",
    "NW.SvExp.sv_edge_correct"
   ],
   "note": "Plain accesses that race are taken to be atomic."
  },
  {
   "property": "C87",
   "status": "partial",
   "theorems": [
    "NW.LpExp.lpcc_partial",
    "NW.LpExp.lpcc_symmetric_partial",
    "NW.LpExp.lpcc_directed",
    "NW.LpExp.lpcc_threads_oob"
   ],
   "note": "Proved with at most as many threads as bins; with more, a run that writes outside the lists is shown. Plain reads that race are taken to be atomic."
  },
  {
   "property": "C88",
   "status": "partial",
   "theorems": [
    "NW.CcV1Exp.ccv1_sound_partial",
    "NW.CcV1Exp.ccv1_ends_partial",
    "NW.CcV1Exp.ccv1_infinite_run",
    "NW.CcV1Exp.ccv1_may_run_forever",
    "NW.CcV1Exp.ccv1_wrong",
    "NW.BfsCc.bfs_cc_sound_partial",
    "NW.BfsCc.bfs_cc_wrong"
   ],
   "note": "Equal labels imply connection, without faults, in every run that ends (compute_connected_components in order here; for several threads see C143); the converse is refuted for both. compute_connected_components_v1 ends unless compare-and-swaps fail spuriously for ever. Plain reads that race are taken to be atomic."
  },
  {
   "property": "C89",
   "status": "partial",
   "theorems": [
    "NW.BcVerify.bcverifier_partial",
    "NW.BcVerify.bcverifier_normalised_partial",
    "NW.BcVerify.bcverifier_integral",
    "NW.BcVerify.bcverifier_rejects_exact",
    "NW.BcVerify.bcverifier_accepts_all",
    "NW.BcVerify.bcverifier_short"
   ],
   "note": "The accepted vectors are characterised exactly; they are not those of the property, and the exact betweenness is proved to be rejected. Scores are exact rationals."
  },
  {
   "property": "C90",
   "status": "partial",
   "theorems": [
    "NW.DeltaExp.delta_stepping_v8_correct",
    "NW.DeltaExp.delta_stepping_v9_v10_v11_partial",
    "NW.DeltaExp.delta_stepping_v9_v10_v11_uninitialised",
    "NW.DeltaExp.delta_stepping_v6_wrong"
   ],
   "note": "v8 is proved in full. v9, v10, v11 are proved if the uninitialised flag reads as false, and proved to read it on every graph with an edge back to the source. v6 is refuted by a race."
  },
  {
   "property": "C91",
   "status": "proved",
   "theorems": [
    "NW.PageRankExp.page_rank_versions",
    "NW.PageRankExp.page_rank_vc_correct"
   ],
   "note": "exact rational arithmetic in place of floating point, as in C71"
  },
  {
   "property": "C92",
   "status": "proved",
   "theorems": [
    "NW.PageRankExp.page_rank_v2_correct"
   ],
   "note": "exact rational arithmetic in place of floating point, as in C71"
  },
  {
   "property": "C93",
   "status": "partial",
   "theorems": [
    "NW.PageRankExp.page_rank_v12_partial",
    "NW.PageRankExp.page_rank_v12_ignores_links",
    "NW.PageRankExp.page_rank_v3_v13_partial",
    "NW.PageRankExp.page_rank_v3_v13_not_normalised"
   ],
   "note": "v12 is proved for thresholds below every contribution and refuted for thresholds of at least 1/n. The scores of v3 and v13 divided by n are proved to converge from below for threshold 0; the scores themselves are refuted."
  },
  {
   "property": "C94",
   "status": "proved",
   "theorems": [
    "NW.BcExp.bc2_v1_correct",
    "NW.BcExp.approx_brandes_correct",
    "NW.BcExp.bc2_empty"
   ],
   "note": "exact rational scores in place of floating point, as in C40"
  },
  {
   "property": "C95",
   "status": "partial",
   "theorems": [
    "NW.BcExp.bc2_v0_partial",
    "NW.BcExp.bc2_v0_source_wrong"
   ],
   "note": "the scores are determined for all vertices; they are the betweenness of the vertices that are not sources, and too large for sources that reach others"
  },
  {
   "property": "C96",
   "status": "partial",
   "theorems": [
    "NW.BcExpPar.bc2_v3_v4_partial",
    "NW.BcExpPar.bc2_v3_v4_source_wrong",
    "NW.BcExpPar.bc2_v4_integral_wrong",
    "NW.BcExpPar.bc2_v3_v4_empty"
   ],
   "note": "the scores are determined for all schedules (exact division); they are the betweenness of the vertices that are not sources, and too large for sources that reach others"
  },
  {
   "property": "C97",
   "status": "partial",
   "theorems": [
    "NW.BcRace.bc2_v2_partial",
    "NW.BcRace.bc2_v2_race",
    "NW.BcRace.bc2_v2_race_ok",
    "NW.BcRace.bc2_v2_empty"
   ],
   "note": "proved for all schedules when every vertex has at most one shortest path from each source; refuted in general by a run that loses an update"
  },
  {
   "property": "C98",
   "status": "proved",
   "theorems": [
    "NW.Zip.zip_program",
    "NW.Zip.zip_program_fault",
    "NW.Zip.zip_sort",
    "NW.Zip.zip_short_column"
   ],
   "note": "programs over the iterators are arbitrary trees of reads, assignments and swaps"
  },
  {
   "property": "C99",
   "status": "proved",
   "theorems": [
    "NW.EdgeList.sort_by_correct",
    "NW.EdgeList.stable_sort_by_correct",
    "NW.EdgeList.lexical_sort_by_correct",
    "NW.EdgeList.lexical_stable_sort_by_correct",
    "NW.EdgeList.lexical_sort_by_uniq",
    "NW.EdgeList.lexical_stable_sort_by_uniq",
    "NW.EdgeList.sort_by_uniq_keeps_duplicates",
    "NW.EdgeList.swap_to_triangular_dyn",
    "NW.permute_correct",
    "NW.graph_degrees_correct"
   ],
   "note": "idx is 0 or 1"
  }
 ]
}