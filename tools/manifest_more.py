C = "NW.Csr."
c("C06", "proved", [C+"csr_directed_build", C+"csr_directed_build_history", C+"exists_oracles"])
c("C07", "proved", [C+"csr_undirected_build", C+"csr_undirected_symmetric"])
c("C08", "partial", [C+"csr_outer_in_bounds_partial", C+"csr_outer_iff", C+"csr_outer_reads_past_end", C+"csr_outer_ofVectors"],
  "false for every adjacency built from an edge list: the outer iteration reads one row past the end; exact condition proved")
c("C09", "proved", [C+"degrees_directed_all_schedules", C+"degrees_undirected_all_schedules", C+"csr_degrees"])
c("C10", "proved", [C+"csr_source"])
c("C11", "partial", [C+"triangularize_partial", C+"triangularize_reads_past_end"],
  "false (out-of-bounds read) for structures built from edge lists; proved when end() is right")
c("C12", "partial", [C+"sort_keeps_edges_partial", C+"sort_rows_characterised", C+"build_sorted_ids", C+"sort_detaches_attributes"],
  "false with attributes: only the id column is sorted; proved without attributes, ids proved always")
c("C13", "partial", [C+"sort_by_degree_partial", C+"sort_by_degree_out_of_bounds", C+"permute_by_degree_wrong_rows", C+"sort_by_degree_unknown_direction"],
  "false unless the sorting permutation is an involution; attributes are detached")
c("C14", "partial", [C+"push_back_fill_partial", C+"push_back_new_vertex_fails", C+"push_back_out_of_order_wrong", C+"push_back_nothing_stays_open"],
  "proved for non-decreasing sources that are vertices; false otherwise")
V = "NW.Vov."; L = "NW.Labels."
c("C15", "proved", [V+"push_back_fill_rows", V+"vov_of_edge_list"])
c("C16", "proved", [E+"uniq_correct", E+"remove_self_loops_correct"])
c("C17", "proved", [E+"swap_to_triangular_correct"])
c("C18", "proved", [E+"relabel_by_degree_correct", E+"relabel_ok", E+"relabel_side_ok", E+"relabel_short_degrees_oob"],
  "a caller-supplied degree array that is too short reads out of bounds")
c("C19", "partial", [L+"property_graph_partial", L+"index_graph_partial", L+"unknown_label_attached_to_vertex_0",
   L+"unknown_label_no_vertices", L+"lookup_known"], "false for edges with unknown labels, which become edges of vertex 0")
c("C20", "partial", [L+"bipartite_graph_partial", L+"bipartite_graphs_correct", L+"bipartite_graph_right_side_oob",
   L+"bipartite_graph_right_side_extra_rows"], "false for idx = 1 with sides of different sizes: always sized by the left side")
c("C21", "proved", ["NW.join_correct", "NW.overlaps_count", "NW.join_reads_out_of_bounds"])
U = "NW.Util."; W = "NW.BitVec'."
c("C33", "proved", [U+"intersection_size_multiset", U+"intersection_size_set"])
c("C44", "partial", [U+"pow2_ceil_log2_partial", U+"pow2_ceil_log2_asserts", U+"log2_floor"],
  "false for 2^62 < v <= 2^63, where pow2 fails its assertion")
c("C45", "proved", [U+"block_partitions"])
c("C46", "partial", [U+"parallel_reduce_partial", U+"parallel_reduce_characterised", U+"parallel_reduce_repeats_init"],
  "false unless init is neutral: it is passed as the identity and counted once per stolen sub-range")
c("C47", "proved", [W+"bit_vector_is_a_set", W+"non_zeros_iteration", W+"membersIn_append", W+"mem_membersIn", W+"membersIn_increasing"])
c("C48", "proved", [U+"fetch_add_linearizes", U+"fetch_add_total"])
c("C49", "partial", [U+"proxysort_partial", U+"proxysort_empty_aborts"], "false for an empty vector, where the assertion fails")
R = "NW.Ranges."
c("C50", "proved", [R+"cyclic_range_partitions", R+"cyclic_neighbor_range_partitions", R+"cyclic_terminates", R+"cyclic_splits_beyond_documented_cutoff"],
  "the documented bound on the number of cycles is exceeded by a factor of two")
c("C51", "partial", [R+"splittable_range_splits", R+"splittable_range_reversed", R+"non_zero_range_splits", R+"plain_range_splits", R+"neighbor_range_splits",
   R+"plain_degree_range_visits", R+"edge_range_splits", R+"splittable_terminates", R+"outerRange_terminates", R+"splittable_cutoff_zero_diverges"],
  "partition proved for every split tree; termination false for cutoff 0, proved for every other cutoff")
c("C52", "partial", [R+"vertex_range_partial", R+"vertex_range_split_repeats", R+"vertex_range_always_divisible"],
  "false: splitting copies the whole range and never stops being allowed")
c("C53", "proved", [R+"edge_range_enumerates", R+"edge_range_splits", R+"edge_range_last_row_faults", R+"edge_range_of_edge_list_out_of_bounds"],
  "in-bounds rows are the hypothesis; an adjacency built from an edge list violates it in its last outer position")

F = "NW.Bfs."
c("C22", "proved", [F+"bfs_correct", F+"bfs_parents_lead_to_root"],
  "Total correctness of the sequential bfs for every graph with in-range neighbours; n must not exceed the sentinel value.")
c("C42", "proved", [F+"verifier_correct", F+"Verifier.det"],
  "The second graph given must be the transpose of the first, as the code assumes; the candidate has one entry per vertex.")
c("C54", "proved", [F+"topdown_bfs_range_correct", F+"topdown_bfs_range_outcome"], "Total correctness, all graphs with in-range neighbours and all seeds.")
c("C55", "partial", [F+"bfs_edge_range_partial", F+"bfs_edge_range_outcome_partial", F+"bfs_edge_range_no_neighbours_faults", F+"bfs_edge_range_self_loop_first"],
  "Proved for seeds whose first neighbour is another vertex.  For seeds without neighbours the code reads out of bounds, for seeds whose first neighbour is themselves it yields the self loop: both proved.")
D = "NW.Dobfs."
c("C23", "proved", [D+"dobfs_correct", D+"dobfs_alpha_zero", "NW.Sure.outcome", "NW.Sure.exists_run", "NW.Sure.no_infinite_run"],
  "All interleavings of the claims of the top-down tasks and of the steps of the bottom-up tasks; plain reads and writes of the parent array are taken to be atomic.")

S = "NW.Sssp."
c("C24", "partial", [S+"dijkstra_partial", S+"dijkstra_small_partial", S+"dijkstra_large_distance"],
  "Every pop order.  Exact up to the value used as infinity, which is the maximum of the vertex type; distances above it are reported as infinity (proved).  Integer weights without overflow.")
c("C25", "proved", [S+"delta_stepping_correct", S+"Delta.det", S+"delta_stepping_zero"],
  "Integer weights such that a path through all vertices does not overflow; floating point is not modelled.")
c("C26", "partial", [S+"m1_partial", S+"m1_result", S+"m1_wrong"], "False whenever another vertex can be reached: nothing is ever relaxed.")
c("C64", "partial", [S+"delta_stepping_parallel_partial", S+"delta_stepping_parallel_uninitialised"],
  "Under every schedule correct if the uninitialised flag reads as false; with the C++ semantics every run on a graph with an edge back to the source is undefined.")

K = "NW.Cc."
c("C27", "proved", [K+"link_never_merges_others", K+"link_compress_correct", K+"compress_all"],
  "Every interleaving of single accesses to the label array, sequentially consistent memory; ids do not wrap.")
c("C28", "partial", [K+"afforest_partial", K+"afforest_outOfBounds"],
  "False as stated: the loops run over size() + 1 vertices, and every run with at least one neighbour round reads outside the graph (proved).  If the extra rows read as empty, correct for every schedule, round count and sampled label.")
c("C43", "partial", ["NW.CcVerify.ccVerifier_partial", "NW.CcVerify.ccVerifier_always_false"],
  "False: the visited array has one entry too many, so the verifier rejects everything (proved).  With one entry per vertex it accepts exactly the component labellings.")

c("C29", "proved", ["NW.Mis.mis_correct", "NW.Mis.mis_greedy", "NW.Mis.mis_directed_not_independent"],
  "Symmetric graphs without self loops, as the property says; on directed graphs the result need not be independent (proved).")
c("C30", "partial", ["NW.Mis.jp_partial", "NW.Mis.jp_not_proper", "NW.Mis.firstMissingPositive_correct"],
  "False: only the vertices of one maximal independent set are coloured, the others keep colour 0 (proved).  The least unused colour is found correctly.")
T = "NW.Triangle."
c("C31", "proved", [T+"triangle_count_correct"], "Natural numbers without wrap-around.")
c("C32", "proved", [T+"triangle_count_parallel", T+"triangle_count_parallel_lower", T+"triangle_count_no_threads"],
  "The workers share only constant data.  On lower triangular input the result is 0 (proved).")
c("C34", "proved", ["NW.Jaccard.jaccard_correct"], "Scores are exact rationals; rounding of the quotient is not modelled.")
c("C35", "proved", ["NW.SpMat.spMatspMat_correct", "NW.SpMat.spMatspMat_reduce"], "Any semiring; the second theorem is for arbitrary map and reduce operations.")
c("C36", "proved", ["NW.SpMat.spMatspMatT_correct"], "Any semiring.")
D = "NW.Dsu."
c("C37", "proved", [D+"union_find_correct", D+"union_find_det"])
c("C38", "partial", [D+"kruskal_partial", D+"kruskal_outOfBounds"],
  "The code allocates one set per edge.  Proved when every vertex id is less than the number of edges; otherwise every run reads out of bounds (proved).")
S = "NW.DisjointSet."
c("C39", "partial", [S+"find_partial", S+"find_is_root_of_zero", S+"find_wrong", S+"union_noop", S+"unions_never_join", S+"getSetSize_wrong"],
  "find ignores its argument: it holds only for elements in the set of element 0, and fails for all others.")
c("C65", "proved", [S+"find_with_pathcompression_correct", S+"combineBySize_correct", S+"combineByHeight_correct", S+"find_with_pathcompression_outOfBounds"],
  "The last theorem: the range check accepts the index one past the end.")
c("C40", "proved", ["NW.Brandes.brandes_bc_exact", "NW.Brandes.brandes_bc_normalised", "NW.Brandes.brandes_bc_empty"],
  "Scores are exact rationals.  Normalising gives NaN for every vertex when no vertex lies between two others; normalising the scores of the empty graph dereferences the end iterator (both proved).")
c("C41", "partial", ["NW.BrandesPar.brandes_bc_parallel_partial", "NW.BrandesPar.parScore_of_not_source", "NW.BrandesPar.brandes_bc_parallel_source_wrong",
  "NW.BrandesPar.brandes_bc_parallel_integral_wrong", "NW.BrandesPar.brandes_bc_parallel_empty", "NW.BrandesPar.finish_normalised"],
  "False: a source also gets its own dependency, and integral path counts are divided as integers (both proved).  Proved for all schedules: termination, no fault, and the exact scores, which agree with the sequential ones for vertices that are not sources.")
W = "NW.Worklist."
c("C57", "proved", [W+"worklist_order", W+"worklist_complete", W+"worklist_ends"], "The loop ends if the body pushes finitely many items in all.")
c("C58", "partial", [W+"tbbworklist_partial", W+"tbbworklist_loses_last", W+"tbbworklist2_partial", W+"tbbworklist2_single"],
  "False: the end test looks at the queue after the iterator has taken its item, so one item is never delivered (proved for both classes; the partial theorems show it is exactly one).")
P = "NW.PathRanges."
c("C59", "partial", [P+"reverse_path_partial", P+"reverse_path_start_eq_stop", P+"reverse_path_second_empty"],
  "False for start = stop, where start is delivered (proved); a second iteration delivers nothing (proved).")
c("C60", "proved", [P+"random_range_walk", P+"random_range_dead_end", P+"random_range_every_walk"],
  "For every sequence of random numbers; conversely every walk is possible.  The last vertex needs a neighbour as well (proved).")
c("C61", "partial", ["NW.DagRange.dag_range_topological_partial", "NW.DagRange.dag_range_no_root"],
  "Proved for every non-empty acyclic graph; on the empty graph begin() takes the front of an empty queue (proved).")
c("C56", "partial", ["NW.DfsRange.dfs_range_partial", "NW.DfsRange.dfs_range_never_ends", "NW.DfsRange.dfs_range_sink_loops"],
  "False for every graph: no loop over the range ends normally (proved), and from a seed without out-edges it runs forever (proved).  The partial theorem: when the vertices without out-edges are reachable from the seed, the vertices delivered before the out-of-bounds read are distinct, and all but possibly vertex 0 are delivered.")
M = "NW.MM."
c("C62", "proved", [M+"read_mm_directed", M+"read_mm_undirected", M+"read_mm_undirected_plain", M+"read_mm_rejects", M+"read_mm_blank_line"],
  "Numbers fit 64 bits and ids the vertex type.  A blank line before the sizes makes the program use uninitialised sizes (proved).")
c("C63", "partial", [M+"write_read_directed_partial", M+"write_read_symmetric_partial", M+"write_read_symmetric_plain_partial", M+"write_read_undirected_general", M+"write_read_undirected_general_plain"],
  "Proved for directed lists in the general format and undirected lists in the symmetric format, for values that survive printing and reading.  False for undirected lists in the default format: every edge comes back twice (proved).")
c("C66", "proved", [M+"mm_symmetry"])
c("C67", "partial", [M+"write_read_adjacency_partial", M+"write_adjacency_fails", M+"write_adjacency1_zero_based"],
  "Proved for adjacency<0> that can be iterated.  False for adjacencies constructed from an edge list alone (out-of-bounds read) and for adjacency<1> (zero-based ids), both proved.")
c("C68", "partial", [M+"read_mm_vector_partial", M+"read_mm_vector_differs"],
  "False for every non-empty file: each number returned is one less than in the file (proved, with length and order).")
G = "NW.DagMis."
c("C69", "partial", [G+"dag_based_mis_partial", G+"dag_based_mis_greedy", G+"dag_based_mis_independent", G+"dag_based_mis_only_roots", G+"dag_based_mis_not_maximal", G+"dag_based_mis_empty", G+"dag_based_mis_loop"],
  "Independent for every initial vector and maximal if every vertex is marked before, on loop-free graphs with a vertex; the result is characterised for every initial vector.  False from a cleared vector (only vertices without an earlier neighbour are marked, proved); the empty graph and a lone loop read the front of an empty queue (proved).")
G = "NW.Worklist."
c("C70", "proved", [G+"tbbworklist2_in_order"], "The condition on pushes is exactly what the loop body controls.")
G = "NW.PageRank."
c("C71", "proved", [G+"page_rank_converges", G+"Always.outcome", G+"page_rank_total", G+"page_rank_zero_degree"],
  "Numbers are exact rationals and single accesses atomic (the program has data races on the contributions).  The hypothesis on degrees is needed: a listed vertex of degree zero gives a division by zero under every schedule (proved).")
G = "NW.BackEdge."
c("C72", "partial", [G+"back_edge_range_rows", G+"get_back_edge_partial", G+"get_back_edge_of_extra", G+"get_back_edge_absent", G+"back_edge_extra_not_shared"],
  "All of it except the last half sentence, which is false: the extra edge is stored twice, and what is written through get_back_edge is not seen by the loop (proved).  For a pair of vertices without an edge in either direction the call dereferences a past-the-end iterator (proved).")
G = "NW.MaxFlow."
c("C73", "partial", [G+"max_flow_partial", G+"max_flow_int", G+"max_flow_bounded", G+"max_flow_not_max", G+"max_flow_isolated", G+"max_flow_same", G+"max_flow_parallel"],
  "Proved over any ordered ring for networks without loops and parallel arcs over a back_edge_range: a flow of the returned value, maximal if the search failed before the limit, and always maximal for integer capacities if the limit is at least the capacity out of the source.  Not maximal otherwise (proved): at most 100000 per iteration; parallel arcs.  An isolated source and source = sink are undefined behaviour (proved).  Floating-point rounding is not modelled.")
G = "NW.Bk."
c("C74", "partial", [G+"bk_maxflow_partial", G+"bk_maxflow_int_partial", G+"bk_not_max", G+"bk_not_max_extra"],
  "Proved over any ordered ring for networks without loops and parallel edges in which every edge has an opposite one: no undefined behaviour, and the number is the value of a flow within the capacities (so never too large); with integers it also ends.  That the flow is maximal is false (proved with concrete networks): neighbours of an orphan are reactivated by the capacity in the wrong direction, and edges that back_edge_range adds are stored twice.  Floating-point rounding is not modelled.")
G = "NW.BfsEdges."
c("C75", "proved", [G+"bfs_edge_range3_correct"], "For every graph with in-range neighbours and every seed.")
c("C76", "partial", [G+"dijkstra_er_never_returns"],
  "False for every input: the function never returns. Every execution ends in undefined behaviour, because the iterator reads the front of the queue before testing that it has one (or reads past an empty row); distances are modelled without overflow.")
c("C77", "partial", [G+"bottomup_bfs_range_partial", G+"bottomup_bfs_range_outcome_partial", G+"bottomup_bfs_range_not_bfs", G+"bottomup_bfs_range_empty"],
  "Proved: the iteration ends, yields every vertex of the graph exactly once in cyclic order, and with each vertex after the seed a neighbour yielded before, if there is one. That only reachable vertices are yielded and that the order follows the distance is false; an empty graph is out of bounds.")
G = "NW.ConfigModel."
c("C78", "partial", [G+"configuration_model_partial", G+"configuration_model_overrun", G+"configuration_model_sums_differ"],
  "Proved exactly when it works: if the sums agree and no vertex but the last of each set has positive degree the degrees are right for every shuffle; for all other sequences with equal sums the stubs are written out of bounds; different sums give an empty list. The header does not compile as it stands; the function is modelled on its own.")
G = "NW.KCore."
c("C79", "partial", [G+"k_core_partial", G+"k_core_number_partial", G+"k_core_wrong", G+"k_core_faults_wrong"],
  "Proved for k <= 0 (nothing is removed); for every k, that no pair is reported twice and that the number is that of the vertices that keep an edge or never had one. For positive k the claim is false, with concrete graphs: only what can be reached from vertex 0 is looked at, once, the iterator reports pairs that are not edges, and it reads past the end of the neighbours.")
G = "NW.Triangle."
c("C80", "proved", [G+"triangle_count_"+x for x in "vc v1 v15 v2 v3 v4 v5 v6 v7 v10 v12 v13 v14 edgesplit edgesplit_upper".split()],
  "One theorem per function, with the sequential set intersection; the two functions under ONE_DIMENSIONAL_EDGE call members that do not exist. Version 12 and 13 add as double, exact below 2^53.")
G = "NW.BiCsr."
c("C81", "partial", [G+"biadjacency_build_partial", G+"biadjacency_dual", G+"biadjacency_sorted", G+"biadjacency_ofVectors", G+"biadjacency_outer_reads_past_end", G+"biadjacency_undirected_oob"],
  "Iterating over a biadjacency constructed from a list is false: the last position is one row too far, proved for all lists. For undirected lists the construction writes out of bounds, proved whenever an id of the other part is too large.")
G = "NW.MM."
c("C82", "partial", [G+"read_bi_partial", G+"read_bi_square_rejected", G+"read_bi_symmetric_rejected", G+"write_bi_partial", G+"write_read_bi_partial", G+"write_read_bi_square", G+"write_bi_fails", G+"write_bi1_zero_based"],
  "Square files are rejected, a biadjacency constructed from a list cannot be written, and biadjacency<1> is written with zero-based ids: proved as negations; the rest is proved. Values must survive being printed and read, see Faithful.")
G = "NW.BfsExp."
c("C83", "proved", [G+"bfs_v6_correct", G+"bfs_levels_correct", G+"bfs_bottom_up_correct", G+"bfs_frontier_once", G+"bfs_frontier_twice"],
  "Plain accesses that race are taken to be atomic. The versions without a claim can enqueue a vertex twice, shown by a run.")
G = "NW.BfsDirExp."
c("C84", "partial", [G+"bfs_v1_partial", G+"bfs_v2_partial", G+"flush_concatenates", G+"bfs_v2_garbage", G+"bfs_threads_oob", G+"bfs_threads_fault", G+"bfs_v2_end_faults"],
  "Proved with at most as many threads as bins and, for bfs_v2, if the uninitialised bit vector holds no bit but the root's and the end of the transpose is its number of vertices (which it is not if the transpose is built from an edge list: then bfs_v2, if it begins bottom-up, never returns); without these the property is false, shown by runs. Plain accesses that race are taken to be atomic.")
G = "NW.CcExp."
c("C85", "partial", [G+"ccv1_correct", G+"ccv2_correct", G+"afforest_correct", G+"ccv5_partial", G+"ccv5_directed"],
  "ccv1, compute_connected_components_v2 and Afforest are proved in full. ccv5 is proved for symmetric graphs; for directed graphs a run with wrong labels is shown. Plain accesses that race are taken to be atomic.")
G = "NW.SvExp."
c("C86", "proved", [G+"sv_vertex_correct", G+"sv_edge_correct"],
  "Plain accesses that race are taken to be atomic.")
G = "NW.LpExp."
c("C87", "partial", [G+"lpcc_partial", G+"lpcc_symmetric_partial", G+"lpcc_directed", G+"lpcc_threads_oob"],
  "Proved with at most as many threads as bins; with more, a run that writes outside the lists is shown. Plain reads that race are taken to be atomic.")
G = "NW.CcV1Exp."
B = "NW.BfsCc."
c("C88", "partial", [G+"ccv1_sound_partial", G+"ccv1_ends_partial", G+"ccv1_infinite_run", G+"ccv1_may_run_forever", G+"ccv1_wrong", B+"bfs_cc_sound_partial", B+"bfs_cc_wrong"],
  "Equal labels imply connection, without faults, in every run that ends (compute_connected_components in order here; for several threads see C143); the converse is refuted for both. compute_connected_components_v1 ends unless compare-and-swaps fail spuriously for ever. Plain reads that race are taken to be atomic.")
G = "NW.BcVerify."
c("C89", "partial", [G+"bcverifier_partial", G+"bcverifier_normalised_partial", G+"bcverifier_integral", G+"bcverifier_rejects_exact", G+"bcverifier_accepts_all", G+"bcverifier_short"],
  "The accepted vectors are characterised exactly; they are not those of the property, and the exact betweenness is proved to be rejected. Scores are exact rationals.")
G = "NW.DeltaExp."
c("C90", "partial", [G+"delta_stepping_v8_correct", G+"delta_stepping_v9_v10_v11_partial", G+"delta_stepping_v9_v10_v11_uninitialised", G+"delta_stepping_v6_wrong"],
  "v8 is proved in full. v9, v10, v11 are proved if the uninitialised flag reads as false, and proved to read it on every graph with an edge back to the source. v6 is refuted by a race.")
G = "NW.PageRankExp."
c("C91", "proved", [G+"page_rank_versions", G+"page_rank_vc_correct"], "exact rational arithmetic in place of floating point, as in C71")
G = "NW.PageRankExp."
c("C92", "proved", [G+"page_rank_v2_correct"], "exact rational arithmetic in place of floating point, as in C71")
c("C93", "partial", [G+"page_rank_v12_partial", G+"page_rank_v12_ignores_links", G+"page_rank_v3_v13_partial", G+"page_rank_v3_v13_not_normalised"],
  "v12 is proved for thresholds below every contribution and refuted for thresholds of at least 1/n. The scores of v3 and v13 divided by n are proved to converge from below for threshold 0; the scores themselves are refuted.")
G = "NW.BcExp."
c("C94", "proved", [G+"bc2_v1_correct", G+"approx_brandes_correct", G+"bc2_empty"], "exact rational scores in place of floating point, as in C40")
c("C95", "partial", [G+"bc2_v0_partial", G+"bc2_v0_source_wrong"], "the scores are determined for all vertices; they are the betweenness of the vertices that are not sources, and too large for sources that reach others")
G = "NW.BcExpPar."
c("C96", "partial", [G+"bc2_v3_v4_partial", G+"bc2_v3_v4_source_wrong", G+"bc2_v4_integral_wrong", G+"bc2_v3_v4_empty"], "the scores are determined for all schedules (exact division); they are the betweenness of the vertices that are not sources, and too large for sources that reach others")
G = "NW.BcRace."
c("C97", "partial", [G+"bc2_v2_partial", G+"bc2_v2_race", G+"bc2_v2_race_ok", G+"bc2_v2_empty"], "proved for all schedules when every vertex has at most one shortest path from each source; refuted in general by a run that loses an update")
G = "NW.Zip."
c("C98", "proved", [G+"zip_program", G+"zip_program_fault", G+"zip_sort", G+"zip_short_column"], "programs over the iterators are arbitrary trees of reads, assignments and swaps")
G = "NW.EdgeList."
c("C99", "proved", [G+"sort_by_correct", G+"stable_sort_by_correct", G+"lexical_sort_by_correct", G+"lexical_stable_sort_by_correct", G+"lexical_sort_by_uniq", G+"lexical_stable_sort_by_uniq", G+"sort_by_uniq_keeps_duplicates", G+"swap_to_triangular_dyn", "NW.permute_correct", "NW.graph_degrees_correct"], "idx is 0 or 1")
G = "NW.JonesExp."
c("C100", "partial", [G+"coloring2_partial", G+"coloring2_improper"], "termination without a fault is proved; different colours are refuted on every graph with an edge that is stored in both directions")
G = "NW.Splice."
c("C101", "partial", [G+"union_by_splicing_partial", G+"union_by_splicing_roots", G+"union_by_splicing_splits", G+"reset_all", G+"reset_past_end"], "termination, soundness and the last call are proved; that elements once connected stay together is refuted")
c("C102", "proved", [G+"compact_correct"], "for the overload without an argument; the other one uses find, which is wrong (see the property on disjoint_set)")
G = "NW.MmFile."
c("C103", "partial", [G+"open_correct", G+"parts_partial", G+"approx_exact", G+"blank_line_duplicates", G+"comment_after_blank_never_ends", G+"missing_newline"], "proved for files with a newline after every line and the sizes right behind the comments; refuted for files with a blank line before the sizes")
G = "NW.Bench."
c("C104", "partial", [G+"build_degrees_correct", G+"random_sources_partial", G+"random_sources_out_of_bounds", G+"random_sources_never_end", G+"random_sources_dead_end"], "proved as long as the generator gives vertices; refuted when it gives the number of vertices, which its range includes")
c("C105", "proved", [G+"load_graph_binary", G+"load_graph_text", G+"load_graph_directed", G+"load_graph_undirected", G+"load_sources_correct"], "composition of the round trip of serialize and of the readers with the test of the first word")
G = "NW.BcWork."
c("C106", "proved", [G+"worklist_serial_correct", G+"worklist_serial_no_parallel", G+"worklist_serial_parallel_edges", G+"worklist_serial_empty"], "the path counts must fit their type; rounding is not modelled; with parallel edges the scores are those of the graph without them")
G = "NW.BcAsync."
c("C107", "partial", [G+"search_partial", G+"search_gives_partial", G+"back_partial", G+"single_edge_lost", G+"single_edge_zero", G+"worklist_wrong", G+"self_loop_deadlock"], "the full claim is false: the last item is always lost (single_edge_lost, worklist_wrong) and loops deadlock (self_loop_deadlock); proved are termination and freedom of deadlock without loops, exactness of the search when the lost items would change nothing, and the all-or-nothing scores of the way back. The treatment of an item under its locks is one step; the unlocked read of a level is not modelled as a race")
G = "NW.BcNoAbs."
c("C108", "partial", [G+"one_source_correct_partial", G+"search_gives_partial", G+"back_gives", G+"never_returns", G+"reads_past_the_end", G+"leftover_edges_wrong", G+"loop_hangs"], "the full claim is false: every call with a source reads past the end of the buckets (never_returns, reads_past_the_end), loops deadlock in parallel rounds (loop_hangs) and a second source gives wrong scores (leftover_edges_wrong). Proved, with that read taken as harmless: correctness for one source under every schedule. The treatment of an item under its locks is one step; the reads after the locks have been released belong to the same step")
G = "NW.TcBench."
c("C109", "partial", [G+"prepare_correct", G+"bench_correct_partial", G+"bench_lower_partial", G+"bench_lower_reports_zero", G+"verifier_correct_partial", G+"verifier_out_of_bounds", G+"worth_relabeling_safe", G+"heuristic_divides_by_zero"], "bench_correct_partial covers all versions but 11 (parallel set intersection of the C++ library) without --lower; bench_lower_partial the versions that count over whole rows with --lower. The claim is false for --lower with versions 1, 4 (the default), 5, 7, 8, 9, 12 (bench_lower_reports_zero), for --verify (verifier_out_of_bounds; verifier_correct_partial takes a write into reserved memory as harmless) and for the heuristic on an empty graph. Averages of the heuristic are exact")
G = "NW.SsspBench."
c("C110", "partial", [G+"oracle_correct", G+"verifier_accepts_iff", G+"verifier_on_correct_result", G+"version0_verified_iff", G+"version13_verified", G+"verifier_accepts_short", G+"verifier_long_out_of_bounds", G+"sources_in_order", G+"sources_out_of_bounds"], "verifier_accepts_iff is the claim for vectors with one entry per vertex that use max()/4 for unreachable. The library's algorithms use max(): verifier_on_correct_result and version0_verified_iff show that a correct result is accepted exactly if every vertex is reachable. Weights are non-negative; distances stay below max()/4")
G = "NW.CcBench."
c("C111", "partial", [G+"print_top_n_correct", G+"reader_correct", G+"bench_correct_partial", G+"afforest_out_of_bounds", G+"afforest_counts_one_too_many", G+"lpcc_splits_component"], "bench_correct_partial is the claim for versions 1, 2, 6, 8 and 9 on every file and for 5, 10 and 11 on symmetric files; it also shows that --verify rejects what is right. The other three theorems show how versions 0, 7, 10 and 11 fail. The rows are read as g[u] for u below size(); iterating with begin() and end() reads one row more (C08)")
G = "NW.AdjList."
c("C112", "partial", [G+"push_back_builds", G+"push_back_in_range_iff", G+"of_edge_list_correct", G+"target_not_a_vertex", G+"target_truncated", G+"num_edges_uninitialised", G+"num_edges_stale"], "push_back_builds and of_edge_list_correct are the claim apart from num_edges() after a push, which is refuted (num_edges_uninitialised, num_edges_stale); push_back_in_range_iff tells exactly when the result is a graph, target_not_a_vertex shows a search that then reads out of bounds. adj_flist from an edge list does not compile")
G = "NW.Iterators."
c("C113", "partial", [G+"soa_positions", G+"soa_distances", G+"csr_positions", G+"csr_distances_partial", G+"csr_distance_negative", G+"csr_equal_across_graphs"], "proved for all lengths that fit the index type, the distances for half of them (which for edge lists is no restriction); above that the distance of a compressed graph is refuted. it++ and it-- do not compile and are not modelled")
G = "NW.BfsBench."
c("C114","partial",[G+"bench_correct_partial",G+"bench_correct_symmetric",G+"bench_searches_backwards",G+"bench_unknown_version",G+"bench_source_not_a_vertex"],"Every version but 2 (and 1 with more threads than bins) finds a tree of the reversed graph, which the verifier accepts; for symmetric files these are the trees of the file. The code searches against the edges: for the file 0->1 every version reports that 1 is not reached from 0, and this passes verification. An unknown version and a source that is not a vertex access memory out of bounds.")
G = "NW.PrBench."
c("C115","partial",[G+"bench_correct_partial",G+"bench_no_version",G+"bench_not_normalised",G+"print_n_ranks_partial",G+"print_n_ranks_small"],"Versions 1, 2, 4, 6 to 11 and 14 report scores within the bounds of C71 of the unique PageRank vector of the file's edges, in exact arithmetic. Version 0 is commented out and reports zeros; versions 3 and 13 report scores that add up to more than one; for 12 see C93. The ranking is right for ten vertices or more; with fewer, memory is read out of bounds.")
G = "NW.BcBench."
c("C116","partial",[G+"bench_correct_partial",G+"bench_exact_correct",G+"bench_correct_symmetric",G+"bench_sources_counted",G+"bench_backwards",G+"bench_wrong_ranking",G+"bench_ends_counted",G+"bench_unknown_version"],"Version 6 is right for every file; versions 1 and 7 are right for symmetric files, and in general they report the betweenness of the graph with its edges turned round, because the benchmark builds the transposed graph. Versions 0, 3, 4, 5 and 8 count each source in its own score, and so does the verifier. For version 2 see C97. An unknown version makes the verifier read out of bounds.")
G = "NW.DsetOut."
c("C117","partial",[G+"history_representatives",G+"for_each_root_index_correct",G+"for_each_root_correct",G+"set_number_never_changes",G+"get_subsets_one_set",G+"get_subsets_partial",G+"compact_sets_partial",G+"compact_sets_wrong",G+"compact_values_partial",G+"compact_values_wrong",G+"join_noop",G+"reset_then_find_never_ends",G+"reset_out_of_bounds",G+"direct_join_correct",G+"all_to_singletons_correct",G+"union_by_size_atomic_partial",G+"union_by_size_atomic_wrong_size"],"Representatives and the visits to the roots are right for every history. getSubsets, getCompactDisjSets(nsets) and join use find, which always starts at element 0 (C39): they are right only for elements in the set of 0. getCompactDisjSets() compares raw entries. unionBySizeAtomic is modelled for one thread here; for several see C142.")
G = "NW.Tools."
c("C118","partial",[G+"converted_directed",G+"converted_undirected",G+"process_edge_list_writes",G+"read_mm_loaded",G+"converted_wrong_direction"],"Holds if the benchmark reads the file in the direction it was written in. Otherwise load_graph only prints a warning and the edges of a symmetric file are not the same (converted_wrong_direction).")
c("C119","partial",[G+"verify_sources_partial",G+"verify_sources_count",G+"verify_sources_out_of_bounds"],"Provided that the number num_vertices, which the distribution includes, is not drawn too early: otherwise the degrees are read out of bounds.")
G = "NW.Shared."
c("C120","proved",[G+"cas_loops_serialise",G+"write_min_correct",G+"write_max_correct",G+"write_add_correct",G+"mutex_counter_correct",G+"atomic_counter_correct",G+"plain_counter_loses"],"Interleavings of the atomic accesses, with a strong compare-and-swap as the code uses. plain_counter_loses shows that the plain counting_output_iterator must not be shared; the library uses it in one thread only.")
G = "NW.Times."
c("C121","proved",[G+"report_correct",G+"report_aligned"],"The times are rational numbers; rounding of the sum of doubles is not modelled.")
G = "NW.Aos."
c("C122","partial",[G+"aos_roundtrip",G+"aos_smaller_type",G+"aos_larger_type",G+"aos_equal_characterised",G+"aos_equal_partial",G+"aos_equal_wrong"],"Saving and loading hold. == is right for arrays of equal length; it says that an array equals any longer one it begins, and reads past the end of a shorter one.")
c("C123","proved",[G+"histogram_correct",G+"histogram_out_of_bounds"],"For values that are numbers; the overload for tuples does not compile.")
G = "NW.Oracle."
c("C124","partial",[G+"oracle_partial",G+"Searched.det",G+"oracle_unlinked_wrong",G+"oracle_alone_out_of_bounds",G+"oracle_absent",G+"dblp_wrong",G+"oracle_dblp_asserts"],"Proved for oracle.cpp whenever the chosen name has a link. False of the code otherwise: those not linked get number 0 and an invented line, a chosen name without links makes the search run out of bounds, a name that is not in the data stands for the first one. In dblp.cpp the missing test j > i makes all numbers one too large if a self loop is stored first; oracle+dblp.cpp fails an assertion when it reads its second file. Reading JSON is not modelled.")
c("C125","proved",[G+"overlap_list",G+"dns_overlap",G+"shared_nodup"],"The critical sections are executed one after the other, in any order. Reading the Matrix Market file is not part of this model; see C62.")
c("C126","partial",[G+"delink_plain",G+"delink_page",G+"delink_text",G+"delink_early_close",G+"delink_no_close"],"False of the code if there is a ]] before the link; a missing ]] is not noticed.")
G = "NW.Apb."
c("C127","partial",[G+"index_loops",G+"range_loops_partial",G+"range_loops_wrong",G+"spmv_loop",G+"out_degrees_loop",G+"in_degrees_loop",G+"spmv_matrix",G+"spmv_program"],"Proved of graphs whose end is where their vertices end. False of the code for graphs built from an edge list, which is how the benchmarks build them: there the end is one further and the loops over the graph, its neighbour range and its edge range read out of bounds.")
c("C128","partial",[G+"parallel_by_source",G+"parallel_spmv",G+"parallel_out_degrees",G+"pieces_visited",G+"parallel_in_degrees_partial",G+"parallel_in_degrees_wrong"],"Proved for updates of the source's entry. False of the code for updates of the target's entry (tbb.cpp:159): increments can get lost; what is proved there is that no entry gets too large. Loads and stores are taken to be atomic, one by one.")
c("C129","proved",[G+"bfs_marks",G+"dfs_marks",G+"search_det",G+"search_bad_seed"],"The benchmarks pass the adjacency by target, so what they reach is what can be reached backwards. bfs.cpp:284 and 297 loop over ranges that are modelled elsewhere (C55).")
G = "NW.Stream."
c("C130","partial",[G+"stream_edges_prints",G+"stream_edges_injective",G+"stream_edges_ignores_stream",G+"stream_stats_prints",G+"stream_stats_csr_prints",G+"stream_csr_prints_partial",G+"stream_built_partial",G+"stream_built_wrong",G+"stream_indices_prints",G+"stream_indices_empty_wrong",G+"stream_aos_prints"],"Proved in full for stream_indices (of a structure with offsets) and for arrays of structs. False of the code for stream_edges(os), stream(os) and stream_stats(os), which write to std::cout whatever is given; what they write there is right. False for stream() of adjacencies built from an edge list, which read out of bounds; proved for adjacencies with as many rows as their end says.")
c("C131","partial",[G+"trim_trims",G+"Trimmed.unique",G+"provenance_history_partial",G+"provenance_parts_wrong",G+"provenance_assign",G+"provenance_assign_iff",G+"provenance_assign_self",G+"provenance_stream",G+"provenance_stream_newline"],"False of the code in three ways: a note with a file is trimmed as a whole, not its parts; assignment appends to what is there; assigning a provenance to itself is undefined unless it is empty. Proved of the rest.")
G = "NW.DfsEdges."
c("C132","partial",[G+"dfs_edges_search_partial",G+"dfs_edges_outcome_partial",G+"dfs_edges_tree_partial",G+"depthFirst_reachable",G+"dfs_edges_isolated_wrong",G+"dfs_edges_loop_wrong",G+"dfs_edges_later_loop_wrong"],"False of the code for a seed without neighbours (reads past its row), for a seed that is its own first neighbour (the assertion fails at the end) and for another vertex that is entered while it is its own first neighbour. Proved for every graph in which only the seed may be its own neighbour, and not its first one.")
G = "NW.Timer."
c("C133","partial",[G+"elapsed_history",G+"elapsed_partial",G+"lap_eq",G+"laps_monotone",G+"pieces",G+"print_partial",G+"life_partial",G+"showG_small",G+"showG_large",G+"elapsed_restart_wrong",G+"elapsed_clock_wrong",G+"print_wrong"],"False of the code after a start that no stop follows and after the clock was set back (negative times), and for printing a million units or more (six digits are kept). Proved of every other history and number; the error of the printed number is bounded.")
G = "NW.TypeCode."
c("C134","partial",[G+"read_banner_iff",G+"read_banner_long_wrong",G+"read_banner_refines",G+"to_str_iff",G+"to_str_wrong",G+"to_str_read_banner",G+"is_valid_partial",G+"is_valid_hermitian_wrong",G+"is_valid_unknown_wrong",G+"array_size_partial",G+"array_size_never_ends"],"Proved for banners whose lines and words fit the buffers. False of the code: longer words are written past the buffers; a code that does not begin with M is printed through a pointer that was never set; mm_is_valid accepts Hermitian matrices of integers and letters that stand for nothing; a comment behind a blank line is read forever.")
G = "NW.Soa."
c("C135","partial",[G+"soa_history_partial",G+"soa_constructors",G+"soa_reads",G+"soa_move",G+"soa_copy_short_wrong",G+"soa_copy_long_wrong",G+"soa_columns_wrong"],"Proved for every sequence of calls in which copy is given as many elements as there are. False of the code: copy of fewer elements keeps the old ones behind them, copy of more elements writes past the end, and the constructors accept columns of different lengths.")
G = "NW.BitOwner."
c("C136","partial",[G+"bit_vectors_are_values",G+"bit_vectors_free_partial",G+"bit_vectors_leak_wrong",G+"bit_vectors_swap"],"That the vectors are values of their own and that no memory is used after it was freed or freed twice is proved for every sequence of operations; that all memory is freed, for programs that only assign to vectors that have been moved from, as std::swap does. False of the code: move assignment to any other vector never frees the memory that the vector had.")
G = "NW.BenchLog."
c("C137","partial",[G+"log_table_partial",G+"log_graph_name",G+"log_graph_wrong",G+"log_branch_wrong",G+"log_git_wrong",G+"log_host_wrong",G+"log_appends",G+"log_directory_wrong"],"Proved when everything fits the columns. False of the code: a branch name of ten characters or more runs into the revision; without git the columns are shifted; of a graph whose name has an underscore only what is before it is written; a host name of twenty characters or more is read past its array; if two directories have to be made, there is no log.")
G = "NW.ApbDijkstra."
c("C138","partial",[G+"apb_dijkstra_correct_partial",G+"apb_dijkstra_program",G+"apb_dijkstra_line_wrong",G+"apb_dijkstra_endless",G+"apb_dijkstra_seed_wrong"],"Proved: the distances, the end of the run and when there is none. False of the code: the fourth variant prints no line; a seed that is not a vertex is a write out of bounds. Weights are integers with exact sums, not doubles.")
G = "NW.ApbExec."
c("C139","partial",[G+"exec_product_partial",G+"exec_counter_partial",G+"exec_program_wrong",G+"exec_par_counter_wrong"],"Proved for the three variants with a counting iterator, for both policies, and for the third on a graph that ends with its last row. False of the program: the third variant reads out of bounds; with a parallel outer policy it puts rows at wrong positions. Numbers are those of a commutative semiring, not floats.")
G = "NW.Imdb."
c("C140","partial",[G+"imdb_partial",G+"imdb_not_movies_wrong"],"Proved if all acting credits are for listed movies and of listed persons. False otherwise: whenever two persons have acting credits for titles that are not movies and never acted in the same movie, the number printed is 1 and the line names the heading of the table.")
G = "NW.PermIter."
c("C141","proved",[G+"perm_iter_reads",G+"perm_iter_out_of_bounds",G+"perm_iter_endless",G+"perm_iter_permutes",G+"perm_iter_writes"],"The base is a position in a vector; difference_type does not overflow.")
G = "NW.DsetPar."
c("C142","partial",[G+"concurrent_unions_partial",G+"concurrent_unions_never_found",G+"concurrent_unions_wrong_sets"],"Proved under every schedule for calls that do not meet. False of the code otherwise: two runs are shown, one after which find_with_pathcompression never returns and one that leaves the wrong sets. Every access to sets_ is one atomic step.")
G = "NW.BfsCcPar."
c("C143","partial",[G+"parallel_ends_partial",G+"in_order_runs",G+"parallel_one_label",G+"parallel_wrong","NW.BfsCc.bfs_cc_sound_partial"],"Proved: the end, the absence of faults and the range of the labels, under every schedule; the loop in order is one of the schedules, and there equal labels mean connection (C88). False of the code: on every graph some schedule gives all vertices the same label. Plain accesses that race are taken to be atomic; a search is one step.")
G = "NW.Sssp."
c("C144","partial",[G+"dijkstra_any_weights_partial",G+"delta_stepping_any_weights_partial",G+"delta_stepping_any_weights_outcome_partial",G+"delta_stepping_parallel_any_weights_partial",G+"weights_wrap_wrong",G+"weights_wrap_parallel_wrong"],"Proved: the end without a fault, and that entries are weights of walks modulo the number of values. False of the code: a distance that fits the type is reported too small. The parallel delta_stepping is covered for every schedule if its uninitialised flag reads as false.")
G = "NW.SsspSigned."
c("C145","partial",[G+"dijkstra_signed",G+"dijkstra_signed_endless",G+"dijkstra_signed_source",G+"delta_stepping_signed_partial",G+"delta_stepping_walks_partial",G+"delta_stepping_negative_wrong",G+"delta_stepping_lost_wrong"],"dijkstra: proved. delta_stepping (the sequential overload): proved if no weight is negative, and that entries are weights of walks in any case; with negative weights false of the code, for every graph whose first edge is negative enough, and with a lost vertex as a second witness. Signed overflow is not modelled.")
G = "NW.Bin."
c("C146","partial",[G+"edgelist_cut_short_partial",G+"csr_cut_short_partial",G+"edgelist_cut_short_wrong",G+"edgelist_cut_tail_wrong",G+"csr_cut_short_wrong"],"False of the code, with one file cut in four places as witness, and for every edge list without attributes if the file ends among the targets. Proved for every file and every cut: some read of the loader comes short. Missing: what the unchecked loaders return for the other cuts.")
