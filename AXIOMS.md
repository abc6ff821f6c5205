# Axioms used by the theorems of the manifest

Generated by `tools/axioms.py` with `#print axioms`.

## Classical.choice, Quot.sound, propext

* `NW.EdgeList.edgelist_num_vertices_partial`
* `NW.Bin.edgelist_binary_roundtrip`
* `NW.Bin.biedgelist_binary_roundtrip`
* `NW.Bin.imageOf_injective`
* `NW.Bin.csr_binary_roundtrip_index64`
* `NW.Bin.csr_binary_roundtrip_index32_partial`
* `NW.Bin.csr_binary_index32_clobbers`
* `NW.Bin.adjacency_binary_roundtrip_index64`
* `NW.Csr.csr_directed_build`
* `NW.Csr.csr_directed_build_history`
* `NW.Csr.csr_undirected_build`
* `NW.Csr.csr_undirected_symmetric`
* `NW.Csr.csr_outer_in_bounds_partial`
* `NW.Csr.csr_outer_reads_past_end`
* `NW.Csr.degrees_directed_all_schedules`
* `NW.Csr.degrees_undirected_all_schedules`
* `NW.JonesExp.coloring2_partial`
* `NW.JonesExp.coloring2_improper`
* `NW.Splice.union_by_splicing_partial`
* `NW.Splice.union_by_splicing_roots`
* `NW.Splice.reset_all`
* `NW.Splice.reset_past_end`
* `NW.Splice.compact_correct`
* `NW.MmFile.open_correct`
* `NW.MmFile.parts_partial`
* `NW.MmFile.blank_line_duplicates`
* `NW.MmFile.comment_after_blank_never_ends`
* `NW.Bench.build_degrees_correct`
* `NW.Bench.random_sources_partial`
* `NW.Bench.random_sources_out_of_bounds`
* `NW.Bench.random_sources_never_end`
* `NW.Bench.random_sources_dead_end`
* `NW.Bench.load_graph_binary`
* `NW.Bench.load_graph_text`
* `NW.Bench.load_graph_directed`
* `NW.Bench.load_graph_undirected`
* `NW.Bench.load_sources_correct`
* `NW.BcWork.worklist_serial_correct`
* `NW.BcWork.worklist_serial_no_parallel`
* `NW.BcWork.worklist_serial_parallel_edges`
* `NW.BcWork.worklist_serial_empty`
* `NW.BcAsync.search_partial`
* `NW.BcAsync.search_gives_partial`
* `NW.BcAsync.back_partial`
* `NW.BcAsync.single_edge_lost`
* `NW.BcAsync.single_edge_zero`
* `NW.BcAsync.worklist_wrong`
* `NW.BcNoAbs.one_source_correct_partial`
* `NW.BcNoAbs.search_gives_partial`
* `NW.BcNoAbs.back_gives`
* `NW.BcNoAbs.never_returns`
* `NW.BcNoAbs.reads_past_the_end`
* `NW.BcNoAbs.leftover_edges_wrong`
* `NW.BcNoAbs.loop_hangs`
* `NW.TcBench.prepare_correct`
* `NW.TcBench.bench_correct_partial`
* `NW.TcBench.bench_lower_partial`
* `NW.TcBench.bench_lower_reports_zero`
* `NW.TcBench.verifier_correct_partial`
* `NW.TcBench.verifier_out_of_bounds`
* `NW.TcBench.worth_relabeling_safe`
* `NW.TcBench.heuristic_divides_by_zero`
* `NW.Csr.triangularize_partial`
* `NW.Csr.triangularize_reads_past_end`
* `NW.SsspBench.oracle_correct`
* `NW.SsspBench.verifier_accepts_iff`
* `NW.SsspBench.verifier_on_correct_result`
* `NW.SsspBench.version0_verified_iff`
* `NW.SsspBench.version13_verified`
* `NW.SsspBench.verifier_accepts_short`
* `NW.SsspBench.verifier_long_out_of_bounds`
* `NW.SsspBench.sources_in_order`
* `NW.CcBench.print_top_n_correct`
* `NW.CcBench.reader_correct`
* `NW.CcBench.bench_correct_partial`
* `NW.CcBench.afforest_out_of_bounds`
* `NW.CcBench.afforest_counts_one_too_many`
* `NW.CcBench.lpcc_splits_component`
* `NW.Iterators.soa_positions`
* `NW.Iterators.csr_distance_negative`
* `NW.Iterators.csr_equal_across_graphs`
* `NW.BfsBench.bench_correct_partial`
* `NW.BfsBench.bench_correct_symmetric`
* `NW.BfsBench.bench_searches_backwards`
* `NW.BfsBench.bench_unknown_version`
* `NW.BfsBench.bench_source_not_a_vertex`
* `NW.PrBench.bench_correct_partial`
* `NW.PrBench.bench_no_version`
* `NW.PrBench.bench_not_normalised`
* `NW.PrBench.print_n_ranks_partial`
* `NW.PrBench.print_n_ranks_small`
* `NW.BcBench.bench_correct_partial`
* `NW.BcBench.bench_exact_correct`
* `NW.BcBench.bench_correct_symmetric`
* `NW.BcBench.bench_sources_counted`
* `NW.BcBench.bench_backwards`
* `NW.BcBench.bench_wrong_ranking`
* `NW.BcBench.bench_ends_counted`
* `NW.BcBench.bench_unknown_version`
* `NW.DsetOut.history_representatives`
* `NW.DsetOut.for_each_root_index_correct`
* `NW.DsetOut.for_each_root_correct`
* `NW.DsetOut.set_number_never_changes`
* `NW.DsetOut.get_subsets_one_set`
* `NW.DsetOut.get_subsets_partial`
* `NW.DsetOut.compact_sets_partial`
* `NW.DsetOut.compact_sets_wrong`
* `NW.DsetOut.compact_values_partial`
* `NW.DsetOut.compact_values_wrong`
* `NW.DsetOut.union_by_size_atomic_partial`
* `NW.DsetOut.union_by_size_atomic_wrong_size`
* `NW.Tools.converted_directed`
* `NW.Tools.converted_undirected`
* `NW.Tools.process_edge_list_writes`
* `NW.Tools.read_mm_loaded`
* `NW.Tools.converted_wrong_direction`
* `NW.Tools.verify_sources_partial`
* `NW.Tools.verify_sources_count`
* `NW.Tools.verify_sources_out_of_bounds`
* `NW.Csr.sort_keeps_edges_partial`
* `NW.Csr.sort_rows_characterised`
* `NW.Csr.build_sorted_ids`
* `NW.Csr.sort_detaches_attributes`
* `NW.Shared.cas_loops_serialise`
* `NW.Shared.write_min_correct`
* `NW.Shared.write_max_correct`
* `NW.Shared.write_add_correct`
* `NW.Shared.mutex_counter_correct`
* `NW.Shared.atomic_counter_correct`
* `NW.Times.report_correct`
* `NW.Times.report_aligned`
* `NW.Aos.aos_roundtrip`
* `NW.Aos.aos_smaller_type`
* `NW.Aos.aos_larger_type`
* `NW.Aos.aos_equal_wrong`
* `NW.Aos.histogram_correct`
* `NW.Aos.histogram_out_of_bounds`
* `NW.Oracle.oracle_partial`
* `NW.Oracle.oracle_unlinked_wrong`
* `NW.Oracle.oracle_alone_out_of_bounds`
* `NW.Oracle.oracle_absent`
* `NW.Oracle.oracle_dblp_asserts`
* `NW.Oracle.overlap_list`
* `NW.Oracle.dns_overlap`
* `NW.Oracle.shared_nodup`
* `NW.Apb.range_loops_partial`
* `NW.Apb.range_loops_wrong`
* `NW.Apb.spmv_loop`
* `NW.Apb.out_degrees_loop`
* `NW.Apb.in_degrees_loop`
* `NW.Apb.spmv_matrix`
* `NW.Apb.spmv_program`
* `NW.Apb.parallel_by_source`
* `NW.Apb.parallel_spmv`
* `NW.Apb.parallel_out_degrees`
* `NW.Apb.pieces_visited`
* `NW.Apb.parallel_in_degrees_partial`
* `NW.Csr.sort_by_degree_partial`
* `NW.Csr.sort_by_degree_out_of_bounds`
* `NW.Csr.permute_by_degree_wrong_rows`
* `NW.Stream.stream_edges_prints`
* `NW.Stream.stream_edges_injective`
* `NW.Stream.stream_edges_ignores_stream`
* `NW.Stream.stream_stats_prints`
* `NW.Stream.stream_stats_csr_prints`
* `NW.Stream.stream_csr_prints_partial`
* `NW.Stream.stream_built_partial`
* `NW.Stream.stream_built_wrong`
* `NW.Stream.stream_indices_prints`
* `NW.Stream.stream_indices_empty_wrong`
* `NW.Stream.stream_aos_prints`
* `NW.Stream.trim_trims`
* `NW.Stream.Trimmed.unique`
* `NW.Stream.provenance_history_partial`
* `NW.Stream.provenance_parts_wrong`
* `NW.Stream.provenance_assign_iff`
* `NW.Stream.provenance_stream_newline`
* `NW.Timer.pieces`
* `NW.Timer.life_partial`
* `NW.Timer.showG_small`
* `NW.Timer.showG_large`
* `NW.Timer.elapsed_restart_wrong`
* `NW.Timer.elapsed_clock_wrong`
* `NW.Timer.print_wrong`
* `NW.TypeCode.read_banner_iff`
* `NW.TypeCode.read_banner_long_wrong`
* `NW.TypeCode.read_banner_refines`
* `NW.TypeCode.to_str_iff`
* `NW.TypeCode.to_str_wrong`
* `NW.TypeCode.to_str_read_banner`
* `NW.TypeCode.is_valid_partial`
* `NW.TypeCode.is_valid_hermitian_wrong`
* `NW.TypeCode.is_valid_unknown_wrong`
* `NW.Soa.soa_copy_short_wrong`
* `NW.BitOwner.bit_vectors_are_values`
* `NW.BitOwner.bit_vectors_free_partial`
* `NW.BitOwner.bit_vectors_leak_wrong`
* `NW.BenchLog.log_table_partial`
* `NW.BenchLog.log_graph_name`
* `NW.BenchLog.log_graph_wrong`
* `NW.BenchLog.log_branch_wrong`
* `NW.BenchLog.log_git_wrong`
* `NW.BenchLog.log_appends`
* `NW.BenchLog.log_directory_wrong`
* `NW.ApbDijkstra.apb_dijkstra_correct_partial`
* `NW.ApbDijkstra.apb_dijkstra_program`
* `NW.ApbDijkstra.apb_dijkstra_line_wrong`
* `NW.ApbDijkstra.apb_dijkstra_endless`
* `NW.ApbExec.exec_product_partial`
* `NW.ApbExec.exec_program_wrong`
* `NW.ApbExec.exec_par_counter_wrong`
* `NW.Csr.push_back_fill_partial`
* `NW.Csr.push_back_new_vertex_fails`
* `NW.Imdb.imdb_partial`
* `NW.Imdb.imdb_not_movies_wrong`
* `NW.PermIter.perm_iter_permutes`
* `NW.DsetPar.concurrent_unions_partial`
* `NW.BfsCcPar.parallel_ends_partial`
* `NW.BfsCcPar.parallel_one_label`
* `NW.BfsCcPar.parallel_wrong`
* `NW.BfsCc.bfs_cc_sound_partial`
* `NW.Sssp.dijkstra_any_weights_partial`
* `NW.Sssp.delta_stepping_any_weights_partial`
* `NW.Sssp.delta_stepping_any_weights_outcome_partial`
* `NW.Sssp.delta_stepping_parallel_any_weights_partial`
* `NW.Sssp.weights_wrap_wrong`
* `NW.SsspSigned.dijkstra_signed`
* `NW.SsspSigned.dijkstra_signed_endless`
* `NW.SsspSigned.delta_stepping_signed_partial`
* `NW.SsspSigned.delta_stepping_negative_wrong`
* `NW.SsspSigned.delta_stepping_lost_wrong`
* `NW.Bin.edgelist_cut_short_partial`
* `NW.Bin.csr_cut_short_partial`
* `NW.Bin.edgelist_cut_short_wrong`
* `NW.Bin.edgelist_cut_tail_wrong`
* `NW.Bin.csr_cut_short_wrong`
* `NW.EdgeList.uniq_correct`
* `NW.EdgeList.swap_to_triangular_correct`
* `NW.EdgeList.relabel_by_degree_correct`
* `NW.EdgeList.relabel_ok`
* `NW.EdgeList.relabel_side_ok`
* `NW.Labels.property_graph_partial`
* `NW.Labels.index_graph_partial`
* `NW.Labels.bipartite_graph_partial`
* `NW.Labels.bipartite_graphs_correct`
* `NW.Labels.bipartite_graph_right_side_oob`
* `NW.join_correct`
* `NW.Bfs.bfs_correct`
* `NW.Bfs.bfs_parents_lead_to_root`
* `NW.Dobfs.dobfs_correct`
* `NW.Sssp.dijkstra_partial`
* `NW.Sssp.dijkstra_small_partial`
* `NW.Sssp.dijkstra_large_distance`
* `NW.Sssp.delta_stepping_correct`
* `NW.Cc.link_never_merges_others`
* `NW.Cc.link_compress_correct`
* `NW.Cc.compress_all`
* `NW.Cc.afforest_partial`
* `NW.Mis.jp_partial`
* `NW.Mis.jp_not_proper`
* `NW.Mis.firstMissingPositive_correct`
* `NW.Triangle.triangle_count_correct`
* `NW.Triangle.triangle_count_parallel`
* `NW.Triangle.triangle_count_parallel_lower`
* `NW.Util.intersection_size_multiset`
* `NW.Util.intersection_size_set`
* `NW.Jaccard.jaccard_correct`
* `NW.SpMat.spMatspMat_correct`
* `NW.SpMat.spMatspMat_reduce`
* `NW.SpMat.spMatspMatT_correct`
* `NW.Dsu.union_find_correct`
* `NW.Dsu.kruskal_partial`
* `NW.Dsu.kruskal_outOfBounds`
* `NW.Brandes.brandes_bc_exact`
* `NW.Brandes.brandes_bc_normalised`
* `NW.Brandes.brandes_bc_empty`
* `NW.BrandesPar.brandes_bc_parallel_partial`
* `NW.BrandesPar.parScore_of_not_source`
* `NW.BrandesPar.brandes_bc_parallel_source_wrong`
* `NW.BrandesPar.brandes_bc_parallel_integral_wrong`
* `NW.BrandesPar.finish_normalised`
* `NW.Bfs.verifier_correct`
* `NW.CcVerify.ccVerifier_partial`
* `NW.CcVerify.ccVerifier_always_false`
* `NW.Util.pow2_ceil_log2_partial`
* `NW.Util.pow2_ceil_log2_asserts`
* `NW.Util.log2_floor`
* `NW.BitVec'.bit_vector_is_a_set`
* `NW.BitVec'.non_zeros_iteration`
* `NW.BitVec'.membersIn_increasing`
* `NW.Util.fetch_add_total`
* `NW.Ranges.cyclic_range_partitions`
* `NW.Ranges.cyclic_neighbor_range_partitions`
* `NW.Ranges.cyclic_splits_beyond_documented_cutoff`
* `NW.Ranges.splittable_range_splits`
* `NW.Ranges.non_zero_range_splits`
* `NW.Ranges.plain_range_splits`
* `NW.Ranges.neighbor_range_splits`
* `NW.Ranges.edge_range_splits`
* `NW.Ranges.edge_range_enumerates`
* `NW.Ranges.edge_range_last_row_faults`
* `NW.Ranges.edge_range_of_edge_list_out_of_bounds`
* `NW.Bfs.topdown_bfs_range_correct`
* `NW.Bfs.topdown_bfs_range_outcome`
* `NW.Bfs.bfs_edge_range_partial`
* `NW.Bfs.bfs_edge_range_outcome_partial`
* `NW.Worklist.tbbworklist2_partial`
* `NW.Worklist.tbbworklist2_single`
* `NW.PathRanges.reverse_path_partial`
* `NW.PathRanges.random_range_walk`
* `NW.PathRanges.random_range_dead_end`
* `NW.PathRanges.random_range_every_walk`
* `NW.DagRange.dag_range_topological_partial`
* `NW.MM.read_mm_directed`
* `NW.MM.read_mm_undirected`
* `NW.MM.read_mm_undirected_plain`
* `NW.MM.read_mm_rejects`
* `NW.MM.read_mm_blank_line`
* `NW.MM.write_read_directed_partial`
* `NW.MM.write_read_symmetric_partial`
* `NW.MM.write_read_symmetric_plain_partial`
* `NW.MM.write_read_undirected_general`
* `NW.MM.write_read_undirected_general_plain`
* `NW.Sssp.delta_stepping_parallel_partial`
* `NW.Sssp.delta_stepping_parallel_uninitialised`
* `NW.DisjointSet.combineBySize_correct`
* `NW.DisjointSet.combineByHeight_correct`
* `NW.MM.mm_symmetry`
* `NW.MM.write_read_adjacency_partial`
* `NW.MM.write_adjacency_fails`
* `NW.MM.write_adjacency1_zero_based`
* `NW.MM.read_mm_vector_partial`
* `NW.MM.read_mm_vector_differs`
* `NW.DagMis.dag_based_mis_partial`
* `NW.DagMis.dag_based_mis_greedy`
* `NW.DagMis.dag_based_mis_independent`
* `NW.DagMis.dag_based_mis_only_roots`
* `NW.DagMis.dag_based_mis_not_maximal`
* `NW.Worklist.tbbworklist2_in_order`
* `NW.PageRank.page_rank_converges`
* `NW.PageRank.Always.outcome`
* `NW.PageRank.page_rank_total`
* `NW.PageRank.page_rank_zero_degree`
* `NW.BackEdge.back_edge_range_rows`
* `NW.BackEdge.get_back_edge_partial`
* `NW.BackEdge.get_back_edge_of_extra`
* `NW.BackEdge.get_back_edge_absent`
* `NW.BackEdge.back_edge_extra_not_shared`
* `NW.MaxFlow.max_flow_partial`
* `NW.MaxFlow.max_flow_int`
* `NW.MaxFlow.max_flow_bounded`
* `NW.MaxFlow.max_flow_not_max`
* `NW.MaxFlow.max_flow_isolated`
* `NW.MaxFlow.max_flow_same`
* `NW.Bk.bk_maxflow_partial`
* `NW.Bk.bk_maxflow_int_partial`
* `NW.Bk.bk_not_max`
* `NW.Bk.bk_not_max_extra`
* `NW.BfsEdges.bfs_edge_range3_correct`
* `NW.BfsEdges.dijkstra_er_never_returns`
* `NW.BfsEdges.bottomup_bfs_range_partial`
* `NW.BfsEdges.bottomup_bfs_range_outcome_partial`
* `NW.ConfigModel.configuration_model_partial`
* `NW.ConfigModel.configuration_model_overrun`
* `NW.KCore.k_core_number_partial`
* `NW.KCore.k_core_wrong`
* `NW.Triangle.triangle_count_vc`
* `NW.Triangle.triangle_count_v1`
* `NW.Triangle.triangle_count_v15`
* `NW.Triangle.triangle_count_v2`
* `NW.Triangle.triangle_count_v3`
* `NW.Triangle.triangle_count_v4`
* `NW.Triangle.triangle_count_v5`
* `NW.Triangle.triangle_count_v6`
* `NW.Triangle.triangle_count_v7`
* `NW.Triangle.triangle_count_v10`
* `NW.Triangle.triangle_count_v12`
* `NW.Triangle.triangle_count_v13`
* `NW.Triangle.triangle_count_v14`
* `NW.Triangle.triangle_count_edgesplit`
* `NW.Triangle.triangle_count_edgesplit_upper`
* `NW.BiCsr.biadjacency_build_partial`
* `NW.BiCsr.biadjacency_dual`
* `NW.BiCsr.biadjacency_sorted`
* `NW.BiCsr.biadjacency_outer_reads_past_end`
* `NW.BiCsr.biadjacency_undirected_oob`
* `NW.MM.read_bi_partial`
* `NW.MM.read_bi_square_rejected`
* `NW.MM.read_bi_symmetric_rejected`
* `NW.MM.write_bi_partial`
* `NW.MM.write_read_bi_partial`
* `NW.MM.write_read_bi_square`
* `NW.MM.write_bi_fails`
* `NW.MM.write_bi1_zero_based`
* `NW.BfsExp.bfs_v6_correct`
* `NW.BfsExp.bfs_levels_correct`
* `NW.BfsExp.bfs_bottom_up_correct`
* `NW.BfsExp.bfs_frontier_once`
* `NW.BfsDirExp.bfs_v1_partial`
* `NW.BfsDirExp.bfs_v2_partial`
* `NW.BfsDirExp.bfs_v2_garbage`
* `NW.BfsDirExp.bfs_threads_oob`
* `NW.CcExp.ccv1_correct`
* `NW.CcExp.ccv2_correct`
* `NW.CcExp.afforest_correct`
* `NW.CcExp.ccv5_partial`
* `NW.SvExp.sv_vertex_correct`
* `NW.SvExp.sv_edge_correct`
* `NW.LpExp.lpcc_partial`
* `NW.LpExp.lpcc_symmetric_partial`
* `NW.LpExp.lpcc_directed`
* `NW.CcV1Exp.ccv1_ends_partial`
* `NW.CcV1Exp.ccv1_infinite_run`
* `NW.CcV1Exp.ccv1_wrong`
* `NW.BcVerify.bcverifier_partial`
* `NW.BcVerify.bcverifier_normalised_partial`
* `NW.BcVerify.bcverifier_integral`
* `NW.BcVerify.bcverifier_rejects_exact`
* `NW.BcVerify.bcverifier_accepts_all`
* `NW.BcVerify.bcverifier_short`
* `NW.DeltaExp.delta_stepping_v8_correct`
* `NW.DeltaExp.delta_stepping_v9_v10_v11_partial`
* `NW.DeltaExp.delta_stepping_v9_v10_v11_uninitialised`
* `NW.DeltaExp.delta_stepping_v6_wrong`
* `NW.PageRankExp.page_rank_versions`
* `NW.PageRankExp.page_rank_vc_correct`
* `NW.PageRankExp.page_rank_v2_correct`
* `NW.PageRankExp.page_rank_v12_partial`
* `NW.PageRankExp.page_rank_v12_ignores_links`
* `NW.PageRankExp.page_rank_v3_v13_partial`
* `NW.PageRankExp.page_rank_v3_v13_not_normalised`
* `NW.BcExp.bc2_v1_correct`
* `NW.BcExp.approx_brandes_correct`
* `NW.BcExp.bc2_empty`
* `NW.BcExp.bc2_v0_partial`
* `NW.BcExp.bc2_v0_source_wrong`
* `NW.BcExpPar.bc2_v3_v4_partial`
* `NW.BcExpPar.bc2_v3_v4_source_wrong`
* `NW.BcExpPar.bc2_v4_integral_wrong`
* `NW.BcRace.bc2_v2_partial`
* `NW.BcRace.bc2_v2_race`
* `NW.BcRace.bc2_v2_race_ok`
* `NW.BcRace.bc2_v2_empty`
* `NW.EdgeList.stable_sort_by_correct`
* `NW.EdgeList.lexical_sort_by_correct`
* `NW.EdgeList.lexical_stable_sort_by_correct`
* `NW.EdgeList.lexical_sort_by_uniq`
* `NW.EdgeList.lexical_stable_sort_by_uniq`
* `NW.permute_correct`

## Quot.sound, propext

* `NW.EdgeList.edgelist_records_pushes`
* `NW.EdgeList.edgelist_history_aborts_iff`
* `NW.EdgeList.edgelist_ofList`
* `NW.BiEdgeList.biedgelist_num_vertices_partial`
* `NW.EdgeList.edgelist_cardinality_wraps_every_width`
* `NW.EdgeList.edgelist_eq_exact_partial`
* `NW.EdgeList.edgelist_eq_characterised`
* `NW.Csr.exists_oracles`
* `NW.Csr.csr_outer_iff`
* `NW.Csr.csr_outer_ofVectors`
* `NW.Csr.csr_degrees`
* `NW.Csr.csr_source`
* `NW.Splice.union_by_splicing_splits`
* `NW.MmFile.approx_exact`
* `NW.MmFile.missing_newline`
* `NW.BcAsync.self_loop_deadlock`
* `NW.SsspBench.sources_out_of_bounds`
* `NW.AdjList.push_back_builds`
* `NW.AdjList.push_back_in_range_iff`
* `NW.AdjList.of_edge_list_correct`
* `NW.AdjList.target_truncated`
* `NW.AdjList.num_edges_uninitialised`
* `NW.AdjList.num_edges_stale`
* `NW.Iterators.soa_distances`
* `NW.Iterators.csr_positions`
* `NW.Iterators.csr_distances_partial`
* `NW.DsetOut.join_noop`
* `NW.DsetOut.reset_then_find_never_ends`
* `NW.DsetOut.reset_out_of_bounds`
* `NW.DsetOut.direct_join_correct`
* `NW.DsetOut.all_to_singletons_correct`
* `NW.Shared.plain_counter_loses`
* `NW.Aos.aos_equal_characterised`
* `NW.Aos.aos_equal_partial`
* `NW.Oracle.dblp_wrong`
* `NW.Oracle.delink_plain`
* `NW.Oracle.delink_page`
* `NW.Oracle.delink_text`
* `NW.Oracle.delink_early_close`
* `NW.Oracle.delink_no_close`
* `NW.Apb.index_loops`
* `NW.Apb.parallel_in_degrees_wrong`
* `NW.Apb.bfs_marks`
* `NW.Apb.dfs_marks`
* `NW.Apb.search_bad_seed`
* `NW.Csr.sort_by_degree_unknown_direction`
* `NW.Stream.provenance_stream`
* `NW.DfsEdges.dfs_edges_search_partial`
* `NW.DfsEdges.dfs_edges_outcome_partial`
* `NW.DfsEdges.dfs_edges_tree_partial`
* `NW.DfsEdges.depthFirst_reachable`
* `NW.DfsEdges.dfs_edges_isolated_wrong`
* `NW.DfsEdges.dfs_edges_loop_wrong`
* `NW.DfsEdges.dfs_edges_later_loop_wrong`
* `NW.Timer.elapsed_history`
* `NW.Timer.elapsed_partial`
* `NW.Timer.laps_monotone`
* `NW.Timer.print_partial`
* `NW.TypeCode.array_size_partial`
* `NW.TypeCode.array_size_never_ends`
* `NW.Soa.soa_history_partial`
* `NW.Soa.soa_reads`
* `NW.Soa.soa_copy_long_wrong`
* `NW.BenchLog.log_host_wrong`
* `NW.ApbDijkstra.apb_dijkstra_seed_wrong`
* `NW.ApbExec.exec_counter_partial`
* `NW.PermIter.perm_iter_reads`
* `NW.PermIter.perm_iter_out_of_bounds`
* `NW.PermIter.perm_iter_endless`
* `NW.PermIter.perm_iter_writes`
* `NW.DsetPar.concurrent_unions_never_found`
* `NW.DsetPar.concurrent_unions_wrong_sets`
* `NW.BfsCcPar.in_order_runs`
* `NW.Sssp.weights_wrap_parallel_wrong`
* `NW.SsspSigned.delta_stepping_walks_partial`
* `NW.Vov.push_back_fill_rows`
* `NW.Vov.vov_of_edge_list`
* `NW.EdgeList.remove_self_loops_correct`
* `NW.EdgeList.relabel_short_degrees_oob`
* `NW.Labels.unknown_label_attached_to_vertex_0`
* `NW.Labels.unknown_label_no_vertices`
* `NW.Labels.lookup_known`
* `NW.Labels.bipartite_graph_right_side_extra_rows`
* `NW.overlaps_count`
* `NW.Sssp.Delta.det`
* `NW.Sssp.delta_stepping_zero`
* `NW.Sssp.m1_partial`
* `NW.Sssp.m1_wrong`
* `NW.Cc.afforest_outOfBounds`
* `NW.Mis.mis_correct`
* `NW.Mis.mis_greedy`
* `NW.Mis.mis_directed_not_independent`
* `NW.Triangle.triangle_count_no_threads`
* `NW.DisjointSet.find_partial`
* `NW.DisjointSet.find_is_root_of_zero`
* `NW.DisjointSet.find_wrong`
* `NW.DisjointSet.union_noop`
* `NW.DisjointSet.unions_never_join`
* `NW.DisjointSet.getSetSize_wrong`
* `NW.BrandesPar.brandes_bc_parallel_empty`
* `NW.Util.block_partitions`
* `NW.Util.parallel_reduce_partial`
* `NW.Util.parallel_reduce_characterised`
* `NW.BitVec'.membersIn_append`
* `NW.BitVec'.mem_membersIn`
* `NW.Util.fetch_add_linearizes`
* `NW.Util.proxysort_partial`
* `NW.Ranges.cyclic_terminates`
* `NW.Ranges.splittable_range_reversed`
* `NW.Ranges.plain_degree_range_visits`
* `NW.Ranges.splittable_terminates`
* `NW.Ranges.outerRange_terminates`
* `NW.Ranges.splittable_cutoff_zero_diverges`
* `NW.Ranges.vertex_range_partial`
* `NW.Ranges.vertex_range_split_repeats`
* `NW.Bfs.bfs_edge_range_self_loop_first`
* `NW.DfsRange.dfs_range_partial`
* `NW.DfsRange.dfs_range_never_ends`
* `NW.Worklist.worklist_ends`
* `NW.PathRanges.reverse_path_start_eq_stop`
* `NW.DagRange.dag_range_no_root`
* `NW.DisjointSet.find_with_pathcompression_correct`
* `NW.DagMis.dag_based_mis_empty`
* `NW.DagMis.dag_based_mis_loop`
* `NW.MaxFlow.max_flow_parallel`
* `NW.BfsEdges.bottomup_bfs_range_not_bfs`
* `NW.KCore.k_core_partial`
* `NW.KCore.k_core_faults_wrong`
* `NW.BiCsr.biadjacency_ofVectors`
* `NW.BfsDirExp.flush_concatenates`
* `NW.BfsDirExp.bfs_threads_fault`
* `NW.BfsDirExp.bfs_v2_end_faults`
* `NW.CcExp.ccv5_directed`
* `NW.CcV1Exp.ccv1_sound_partial`
* `NW.CcV1Exp.ccv1_may_run_forever`
* `NW.BfsCc.bfs_cc_wrong`
* `NW.BcExpPar.bc2_v3_v4_empty`
* `NW.Zip.zip_program`
* `NW.Zip.zip_program_fault`
* `NW.Zip.zip_sort`
* `NW.Zip.zip_short_column`
* `NW.EdgeList.sort_by_correct`
* `NW.EdgeList.sort_by_uniq_keeps_duplicates`
* `NW.graph_degrees_correct`

## none

* `NW.Stream.provenance_assign_self`
* `NW.Timer.lap_eq`
* `NW.Soa.soa_move`
* `NW.Sure.outcome`
* `NW.Sure.exists_run`
* `NW.Sure.no_infinite_run`
* `NW.Util.parallel_reduce_repeats_init`
* `NW.ConfigModel.configuration_model_sums_differ`
* `NW.EdgeList.swap_to_triangular_dyn`

## propext

* `NW.EdgeList.edgelist_cardinality_wraps`
* `NW.EdgeList.edgelist_eq_prefix`
* `NW.EdgeList.edgelist_eq_oob`
* `NW.AdjList.target_not_a_vertex`
* `NW.Oracle.Searched.det`
* `NW.Apb.search_det`
* `NW.Stream.provenance_assign`
* `NW.Soa.soa_constructors`
* `NW.Soa.soa_columns_wrong`
* `NW.BitOwner.bit_vectors_swap`
* `NW.Csr.push_back_out_of_order_wrong`
* `NW.Csr.push_back_nothing_stays_open`
* `NW.SsspSigned.dijkstra_signed_source`
* `NW.join_reads_out_of_bounds`
* `NW.Dobfs.dobfs_alpha_zero`
* `NW.Sssp.m1_result`
* `NW.Dsu.union_find_det`
* `NW.Bfs.Verifier.det`
* `NW.Util.proxysort_empty_aborts`
* `NW.Ranges.vertex_range_always_divisible`
* `NW.Bfs.bfs_edge_range_no_neighbours_faults`
* `NW.DfsRange.dfs_range_sink_loops`
* `NW.Worklist.worklist_order`
* `NW.Worklist.worklist_complete`
* `NW.Worklist.tbbworklist_partial`
* `NW.Worklist.tbbworklist_loses_last`
* `NW.PathRanges.reverse_path_second_empty`
* `NW.DisjointSet.find_with_pathcompression_outOfBounds`
* `NW.BfsEdges.bottomup_bfs_range_empty`
* `NW.BfsExp.bfs_frontier_twice`
* `NW.LpExp.lpcc_threads_oob`

