{"id": "C01", "title": "Edge list records exactly what was pushed", "statement": "After an edge list is opened, any sequence of push_back calls and a close leave an edge list whose i-th element is the i-th pushed (source, target, attributes) tuple, with nothing lost, reordered or split between columns; pushing component-wise to a closed list aborts instead of changing it.", "quantifier": "every initial size, every finite sequence of pushes, every attribute value", "why_tests_cant": "the set of push histories is infinite and column mix-ups only show for particular attribute combinations", "anchors": ["include/nwgraph/edge_list.hpp: index_edge_list::push_back, open_for_push_back, close_for_push_back", "include/nwgraph/containers/soa.hpp: struct_of_arrays::push_back"]}
{"id": "C02", "title": "num_vertices bounds every vertex id in an edge list", "statement": "After any push history num_vertices is the maximum of the size given to the constructor and one more than the largest vertex id ever pushed, so every stored endpoint is a valid vertex id.", "quantifier": "every initial size, every push history over the whole vertex id type (including the largest id)", "why_tests_cant": "failure needs the extreme id of the vertex id type, which test graphs never contain", "anchors": ["include/nwgraph/edge_list.hpp: index_edge_list::push_back, num_vertices"]}
{"id": "C03", "title": "Binary save/load of an edge list is the identity", "statement": "Serializing any edge list and deserializing the bytes gives back an edge list with the same vertex count and the same edges and attributes in the same order, consuming exactly the bytes that were written.", "quantifier": "every edge list, every attribute column, every suffix of bytes after the record", "why_tests_cant": "a test fixes a handful of files; framing errors depend on sizes and byte values", "anchors": ["include/nwgraph/edge_list.hpp: serialize, deserialize", "include/nwgraph/graph_base.hpp: serialize, deserialize", "include/nwgraph/containers/soa.hpp: serialize, deserialize"]}
{"id": "C04", "title": "Edge list equality means equal contents", "statement": "a == b for two edge lists is true exactly when they have the same vertex count and the same sequence of edges, and comparing never reads outside either list.", "quantifier": "every pair of edge lists, of equal or different length", "why_tests_cant": "tests compare a few pairs; the failing pairs are those where one list is a proper prefix of the other", "anchors": ["include/nwgraph/edge_list.hpp: operator==", "include/nwgraph/containers/soa.hpp: operator=="]}
{"id": "C05", "title": "Binary save/load of a compressed adjacency is the identity", "statement": "Serializing a compressed adjacency structure and deserializing the bytes into a fresh one gives the same rows, for the default and for every other index width.", "quantifier": "every compressed structure, both index widths, every memory content next to the object header", "why_tests_cant": "whether the clobbered neighbouring bytes matter depends on memory layout that a test cannot control", "anchors": ["include/nwgraph/containers/compressed.hpp: serialize, deserialize", "include/nwgraph/adjacency.hpp: index_adjacency::serialize"]}
{"id": "C06", "title": "Adjacency built from a directed edge list contains exactly its edges", "statement": "For every vertex u, the neighbourhood of u in adjacency<0> (resp. adjacency<1>) built from a directed edge list is, as a multiset with attributes, exactly the (target, attributes) of edges leaving u (resp. the (source, attributes) of edges entering u).", "quantifier": "every directed edge list, both orientations, every vertex, every sorting algorithm satisfying the std::sort contract", "why_tests_cant": "unstable parallel sorting makes the internal order schedule-dependent; only a proof covers all orders", "anchors": ["include/nwgraph/adjacency.hpp: index_adjacency", "include/nwgraph/build.hpp: fill, fill_directed, degrees", "include/nwgraph/containers/zip.hpp: make_zipped"]}
{"id": "C07", "title": "Adjacency built from an undirected edge list is symmetric", "statement": "For every vertex u the neighbourhood of u in an adjacency built from an undirected edge list is, as a multiset with attributes, one entry per edge incident with u (two for a self loop); hence v occurs in u's list as often as u occurs in v's.", "quantifier": "every undirected edge list, both orientations, every vertex, every conforming sort", "why_tests_cant": "same as C06; symmetry must hold for multigraphs with loops of any size", "anchors": ["include/nwgraph/build.hpp: fill, fill_undirected"]}
{"id": "C08", "title": "Iterating over an adjacency visits each vertex once and stays in bounds", "statement": "Iterating from begin() to end() of a compressed adjacency visits exactly num_vertices() neighbourhoods, and dereferencing each one reads only inside the index array.", "quantifier": "every adjacency produced by every constructor", "why_tests_cant": "the stray read past the index array usually lands in allocated memory, so tests do not notice it", "anchors": ["include/nwgraph/adjacency.hpp: index_adjacency constructors", "include/nwgraph/containers/compressed.hpp: begin, end, operator*, size"]}
{"id": "C09", "title": "Degree arrays are the exact degrees", "statement": "The degree array computed from an edge list (by concurrent atomic increments) and the one computed from a compressed adjacency hold, for each vertex, exactly the number of incident edge ends / stored neighbours, for every interleaving of the increments.", "quantifier": "every edge list, every vertex, every interleaving of the per-edge increments", "why_tests_cant": "lost updates depend on the schedule", "anchors": ["include/nwgraph/build.hpp: degrees", "include/nwgraph/containers/compressed.hpp: degrees"]}
{"id": "C10", "title": "source() inverts edge positions", "statement": "For every stored edge position e of a compressed structure, source(e) is the unique vertex whose neighbourhood contains position e, even when many vertices have no neighbours.", "quantifier": "every well-formed compressed structure and every edge position", "why_tests_cant": "runs of empty neighbourhoods of arbitrary length must be skipped correctly", "anchors": ["include/nwgraph/containers/compressed.hpp: source"]}
{"id": "C11", "title": "triangularize keeps exactly one triangle of the matrix", "statement": "triangularize<predecessor> (resp. <successor>) keeps in each vertex u's list exactly the neighbours smaller (resp. larger) than u, with attributes and order unchanged, and stays inside the arrays.", "quantifier": "every compressed structure, both directions, every vertex", "why_tests_cant": "must hold for every structure; the out-of-bounds row only exists for structures built from edge lists", "anchors": ["include/nwgraph/containers/compressed.hpp: triangularize, triangularize_"]}
{"id": "C12", "title": "Sorting neighbour lists keeps each edge with its attributes", "statement": "Sorting the adjacency (sort_to_be_indexed, or building with sort_adjacency = true) leaves every neighbourhood sorted by target and otherwise the same multiset of (target, attributes) pairs.", "quantifier": "every compressed structure, with and without attributes", "why_tests_cant": "attributes are only detached on unsorted neighbourhoods with distinct attributes", "anchors": ["include/nwgraph/containers/compressed.hpp: sort_to_be_indexed", "include/nwgraph/build.hpp: fill"]}
{"id": "C13", "title": "Reordering vertices by degree preserves the graph", "statement": "sort_by_degree renumbers the vertices by the returned bijection: vertices appear in degree order and v is a neighbour of u in the old graph exactly as often as the new id of v is a neighbour of the new id of u.", "quantifier": "every compressed structure, both directions, every conforming sort", "why_tests_cant": "the error appears only when the sorting permutation is not an involution", "anchors": ["include/nwgraph/containers/compressed.hpp: permute_by_degree, relabel_to_be_indexed, sort_by_degree", "include/nwgraph/containers/soa.hpp: permute"]}
{"id": "C14", "title": "Streaming edges into a compressed structure", "statement": "Opening a compressed structure of N vertices, pushing edges and closing it gives, for every vertex, exactly the pushed entries of that vertex in push order.", "quantifier": "every N and every push history, in any source order, including sources >= N and empty histories", "why_tests_cant": "the failing histories (unsorted sources, source = N, no edges) are easy to miss", "anchors": ["include/nwgraph/containers/compressed.hpp: open_for_push_back, push_back, close_for_push_back", "include/nwgraph/build.hpp: push_back_fill"]}
{"id": "C15", "title": "Filling vector-of-vector graphs from an edge list", "statement": "push_back_fill appends to vertex u's list, in edge order, exactly the other endpoint and properties of each edge that starts at u (idx 0), ends at u (idx 1), or in the undirected case touches u, and never touches other vertices.", "quantifier": "every edge list with in-range endpoints, both idx values, directed and undirected", "why_tests_cant": "covers all histories of appends across all vertices", "anchors": ["include/nwgraph/build.hpp: push_back_fill, fill_adj_list", "include/nwgraph/vovos.hpp: push_back"]}
{"id": "C16", "title": "uniq and remove_self_loops delete exactly the redundant edges", "statement": "On an edge list sorted by (source, target), uniq leaves exactly one edge for each distinct (source, target) pair, the first one, in order; remove_self_loops removes exactly the edges with equal endpoints and keeps the rest in order.", "quantifier": "every edge list (sorted, for uniq)", "why_tests_cant": "runs of duplicates of any length at any position", "anchors": ["include/nwgraph/build.hpp: uniq, remove_self_loops"]}
{"id": "C17", "title": "swap_to_triangular orients every edge and changes nothing else", "statement": "After swap_to_triangular every edge has its endpoints in the requested order, and each edge joins the same two endpoints and carries the same attributes at the same position as before.", "quantifier": "every edge list, both idx values, both successions", "why_tests_cant": "all combinations of compile-time choices and edge values", "anchors": ["include/nwgraph/build.hpp: swap_to_triangular"]}
{"id": "C18", "title": "Relabelling an edge list by degree is an isomorphism", "statement": "relabel_by_degree renames vertices by a bijection on the vertex ids such that degrees are monotone in the new ids, applies that bijection to both endpoints of every edge, keeps attributes and order, and never reads outside its tables.", "quantifier": "every edge list, every vertex, both directions, every conforming sort", "why_tests_cant": "depends on ties and on the permutation not being an involution", "anchors": ["include/nwgraph/build.hpp: perm_by_degree, relabel, relabel_by_degree"]}
{"id": "C19", "title": "Label-based graph construction maps each label to its own vertex", "statement": "make_plain_graph / make_index_graph / make_property_graph put an edge between vertex positions i and j exactly for input edges between the labels at positions i and j; an edge mentioning a label that is not a vertex is not silently attached to some other vertex.", "quantifier": "every list of distinct vertex labels, every list of input edges, including edges with unknown labels", "why_tests_cant": "unknown labels are absent from test data", "anchors": ["include/nwgraph/build.hpp: make_index_map, make_plain_edges, make_property_edges, make_index_edges, make_plain_graph, make_index_graph, make_property_graph"]}
{"id": "C20", "title": "Bipartite graph construction is sized for the indexed side", "statement": "make_bipartite_graph / make_plain_bipartite_graph return a graph with one neighbourhood per vertex of the side selected by idx, containing exactly the edges at that vertex; the pair builders return mutually transposed graphs.", "quantifier": "every pair of vertex lists (any relative sizes), every edge list, both idx values", "why_tests_cant": "idx = 1 with more right than left vertices is the only failing case", "anchors": ["include/nwgraph/build.hpp: data_to_graph_edge_list, make_plain_bipartite_graph, make_bipartite_graph, make_bipartite_graphs"]}
{"id": "C21", "title": "join of a bipartite pair yields all overlaps", "statement": "join(G, H) lists, for each vertex i, exactly the pairs (j, k) such that k is a hyperedge of i and j != i is a member of k, with multiplicity.", "quantifier": "every pair of graphs with in-range entries", "why_tests_cant": "combinatorial explosion of incidence structures", "anchors": ["include/nwgraph/build.hpp: join"]}
{"id": "C22", "title": "Breadth-first search finds exactly the reachable vertices by shortest paths", "statement": "bfs(graph, root) returns a parent array in which a vertex other than the root has a parent exactly when it is reachable from the root, every parent link is a graph edge, and following parents reaches the root in exactly the BFS distance many steps.", "quantifier": "every graph with in-range neighbours, every root", "why_tests_cant": "shortest-path optimality over all graphs", "anchors": ["include/nwgraph/algorithms/bfs.hpp: bfs(Graph, root)"]}
{"id": "C23", "title": "Parallel direction-optimizing BFS is schedule independent up to the choice of parent", "statement": "For every interleaving and every choice of switching parameters (alpha, beta > 0) the direction-optimizing bfs terminates and returns a valid BFS tree: a vertex has a parent exactly when it is reachable, and each parent is one BFS level closer to the root.", "quantifier": "every graph and its transpose, every root, every positive alpha/beta, every interleaving of claims", "why_tests_cant": "the schedule space is unbounded", "anchors": ["include/nwgraph/algorithms/bfs.hpp: bfs(out_graph, in_graph, root, num_bins, alpha, beta)", "include/nwgraph/util/AtomicBitVector.hpp", "include/nwgraph/util/atomic.hpp: cas"]}
{"id": "C24", "title": "dijkstra returns shortest path distances", "statement": "dijkstra(graph, source) terminates and returns, for every vertex, the least total weight of a path from the source, or the 'infinity' value when there is none, whatever order the priority queue pops equal or unequal entries in.", "quantifier": "every graph with non-negative weights, every source, every pop order", "why_tests_cant": "optimality over all paths; the queue compares vertex ids before distances", "anchors": ["include/nwgraph/algorithms/dijkstra.hpp: dijkstra"]}
{"id": "C25", "title": "Sequential delta stepping returns shortest path distances", "statement": "delta_stepping(graph, source, delta) terminates and returns for every vertex the least total weight of a path from the source (infinity when unreachable), for every positive delta.", "quantifier": "every graph with non-negative integer weights, every source, every positive delta", "why_tests_cant": "bucket boundary conditions interact with delta and path lengths", "anchors": ["include/nwgraph/algorithms/delta_stepping.hpp: delta_stepping"]}
{"id": "C26", "title": "delta_stepping_m1 relaxes edges", "statement": "delta_stepping_m1 returns the shortest path distances for every graph, source and positive delta.", "quantifier": "every graph, source and positive delta", "why_tests_cant": "the property is violated for every graph in which some other vertex is reachable", "anchors": ["include/nwgraph/algorithms/delta_stepping.hpp: delta_stepping_m1"]}
{"id": "C27", "title": "Concurrent component linking never merges or splits components", "statement": "Starting from singletons, for every interleaving of link and compress steps executed by any number of threads, two vertices carry connected labels only if the linked edges connect them; once all links have finished they are connected exactly when the linked edges connect them, and a final compress makes labels equal exactly within components.", "quantifier": "every set of edges, every number of threads, every interleaving of atomic steps", "why_tests_cant": "lock-free races: unbounded schedules", "anchors": ["include/nwgraph/algorithms/connected_components.hpp: link, compress"]}
{"id": "C28", "title": "afforest returns the connected components", "statement": "afforest(graph, t_graph) terminates without reading outside the graph and returns an array in which two vertices have the same label exactly when they are connected by edges of graph (used in either direction).", "quantifier": "every symmetric graph or graph/transpose pair, every number of neighbour rounds, every sampled component", "why_tests_cant": "the skipped component is chosen at random; correctness must not depend on it", "anchors": ["include/nwgraph/algorithms/connected_components.hpp: afforest, sample_frequent_element"]}
{"id": "C29", "title": "maximal_independent_set returns a maximal independent set", "statement": "On a symmetric graph the returned vertex set contains no two adjacent distinct vertices and every vertex outside it is adjacent to a member.", "quantifier": "every graph with in-range neighbours", "why_tests_cant": "universal over graphs", "anchors": ["include/nwgraph/algorithms/maximal_independent_set.hpp: maximal_independent_set"]}
{"id": "C30", "title": "Jones-Plassmann colouring is proper", "statement": "The colouring routine assigns every vertex a colour such that adjacent vertices get different colours, each newly chosen colour being the least positive integer unused by the neighbours.", "quantifier": "every symmetric graph without self loops", "why_tests_cant": "universal over graphs", "anchors": ["include/nwgraph/algorithms/jones_plassmann_coloring.hpp: jones_plassmann_coloring, firstMissingPositive"]}
{"id": "C31", "title": "Sequential triangle count is the number of triangles", "statement": "On the upper or lower triangular, sorted adjacency of a simple undirected graph, triangle_count returns the number of triangles (unordered triples of mutually adjacent vertices).", "quantifier": "every simple graph on any number of vertices, both triangular orientations", "why_tests_cant": "counting identity over all graphs", "anchors": ["include/nwgraph/algorithms/triangle_count.hpp: triangle_count", "include/nwgraph/util/intersection_size.hpp"]}
{"id": "C32", "title": "Parallel triangle count does not depend on the partition", "statement": "For every number of threads >= 1 and every completion order the asynchronous triangle_count returns the same value as the sequential one on an upper triangular sorted adjacency.", "quantifier": "every graph, thread count and completion order", "why_tests_cant": "schedule- and partition-dependence", "anchors": ["include/nwgraph/algorithms/triangle_count.hpp: triangle_count_async, triangle_count(A, threads)"]}
{"id": "C33", "title": "intersection_size is the size of the set intersection", "statement": "For two strictly increasing sequences intersection_size returns the number of common elements and reads only inside the sequences; for non-decreasing sequences it returns the multiset intersection size.", "quantifier": "all pairs of sorted sequences of any length", "why_tests_cant": "merge loops over arbitrary lengths", "anchors": ["include/nwgraph/util/intersection_size.hpp: intersection_size"]}
{"id": "C34", "title": "jaccard similarity scores are exact", "statement": "After jaccard_similarity every stored edge (u, v) with u < v carries the score |N(u) ∩ N(v)| / |N(u) ∪ N(v)| of the sorted neighbour sets, whose denominator is never zero; the other edges and the structure of the graph are unchanged, and the returned number is the number of edges scored.", "quantifier": "every graph with sorted duplicate-free neighbourhoods", "why_tests_cant": "universal over graphs", "anchors": ["include/nwgraph/algorithms/jaccard.hpp: jaccard_similarity"]}
{"id": "C35", "title": "Sparse matrix product is the matrix product", "statement": "spMatspMat(A, B) returns a list of entries (i, j, x), at most one per (i, j), with x = sum over k of A[i][k] * B[k][j], containing an entry exactly for those (i, j) for which some k has both A[i][k] and B[k][j] stored.", "quantifier": "every pair of sparse matrices with compatible dimensions over any commutative semiring, with duplicate stored entries allowed", "why_tests_cant": "universal over matrices", "anchors": ["include/nwgraph/algorithms/spMatspMat.hpp: spMatspMat"]}
{"id": "C36", "title": "Sparse product with a transpose is the product of row dot products", "statement": "spMatspMatT(A, B) returns at (i, j) the sum over the common columns k of A[i][k] * B[j][k], for matrices whose rows are sorted without duplicates, with an entry exactly when the rows share a column.", "quantifier": "every pair of sparse matrices with strictly increasing rows", "why_tests_cant": "merge loop over arbitrary rows", "anchors": ["include/nwgraph/algorithms/spMatspMat.hpp: spMatspMatT, set_ewise_intersection"]}
{"id": "C37", "title": "Union-find tracks the generated equivalence", "statement": "After any sequence of disjoint_find / disjoint_union / disjoint_union_find calls starting from singletons, two elements have the same representative exactly when they are connected by the union calls made; find never changes the partition and terminates; disjoint_union_find reports whether the union merged two classes.", "quantifier": "every number of elements, every call sequence", "why_tests_cant": "unbounded histories; rank and path compression interplay", "anchors": ["include/nwgraph/util/disjoint_set.hpp: disjoint_find, disjoint_union, disjoint_union_find"]}
{"id": "C38", "title": "kruskal returns a minimum spanning forest", "statement": "For every edge list and weight order, kruskal returns a cycle-free subset of the edges that connects the same vertices as the input and whose total weight is least among such subsets, without reading outside its arrays.", "quantifier": "every weighted edge list, every conforming sort", "why_tests_cant": "optimality over all spanning forests; out-of-bounds access when a vertex id is at least the number of edges", "anchors": ["include/nwgraph/algorithms/kruskal.hpp: kruskal"]}
{"id": "C39", "title": "disjoint_set::find returns the set of its argument", "statement": "find(x) of the disjoint_set class returns the representative of the set containing x.", "quantifier": "every sequence of joins and every element", "why_tests_cant": "fails for every structure with two or more sets", "anchors": ["include/nwgraph/util/disjoint_set.hpp: class disjoint_set: find"]}
{"id": "C40", "title": "Sequential Brandes betweenness is exact", "statement": "The sequential betweenness routine returns, for each vertex v, the sum over all sources s != v and targets t != v of the fraction of shortest s-t paths that pass through v; with normalization, that sum divided by the largest one.", "quantifier": "every unweighted graph (parallel edges and loops included) whose numbers of shortest paths fit the counting type", "why_tests_cant": "sums over exponentially many shortest paths", "anchors": ["include/nwgraph/algorithms/betweenness_centrality.hpp: brandes_bc (sequential), exact_brandes_bc"]}
{"id": "C41", "title": "Parallel Brandes agrees with the sequential one", "statement": "For the same sources the parallel betweenness routine yields the same scores as the sequential routine.", "quantifier": "every graph, every source list, every interleaving", "why_tests_cant": "schedule dependence; the score of a source itself differs", "anchors": ["include/nwgraph/algorithms/betweenness_centrality.hpp: brandes_bc (parallel)"]}
{"id": "C42", "title": "The BFS verifier accepts exactly the valid BFS parent arrays", "statement": "BFSVerifier returns true exactly when the parent array given is a valid BFS tree of the graph from the source.", "quantifier": "every graph, source and candidate parent array", "why_tests_cant": "universal over candidate answers", "anchors": ["include/nwgraph/algorithms/bfs.hpp: BFSVerifier"]}
{"id": "C43", "title": "The component verifier accepts exactly the component labellings", "statement": "CCVerifier returns true exactly when the label array gives equal labels precisely to connected vertices.", "quantifier": "every graph and candidate label array", "why_tests_cant": "universal over candidate answers", "anchors": ["include/nwgraph/algorithms/connected_components.hpp: CCVerifier"]}
{"id": "C44", "title": "Power-of-two rounding", "statement": "For every 64-bit n >= 1 with a representable result, pow2(ceil_log2(n)) is the least power of two that is at least n.", "quantifier": "all 64-bit values", "why_tests_cant": "2^64 inputs", "anchors": ["include/nwgraph/util/util.hpp: log2, ceil_log2, pow2"]}
{"id": "C45", "title": "Block distribution partitions the index range", "statement": "The ranges block(N, n, 0), ..., block(N, n, n-1) are consecutive, disjoint, cover [0, N) exactly, and their sizes differ by at most one; the assertions in the function never fire for id < n.", "quantifier": "every N, every n >= 1, every id < n", "why_tests_cant": "two unbounded parameters", "anchors": ["include/nwgraph/util/util.hpp: block"]}
{"id": "C46", "title": "parallel_reduce equals the sequential reduction", "statement": "For every associative and commutative combination, every initial value and every splitting of the range, parallel_reduce returns the fold of the range elements from the initial value.", "quantifier": "every range, every splitting tree, every initial value", "why_tests_cant": "splitting is decided by the scheduler at run time", "anchors": ["include/nwgraph/util/parallel_for.hpp: parallel_reduce, parallel_for_sequential"]}
{"id": "C47", "title": "Atomic bit vector behaves as a set of indices", "statement": "After any interleaving of set operations the bit vector contains exactly the indices set; get reports membership; set reports the previous membership so that exactly one of several concurrent setters of one index sees it unset; iterating the non-zero entries (also over any splitting of the range) yields each member exactly once in increasing order.", "quantifier": "every size, every interleaving of operations, every splitting", "why_tests_cant": "word-boundary cases and schedules", "anchors": ["include/nwgraph/util/AtomicBitVector.hpp"]}
{"id": "C48", "title": "Compare-and-swap based atomic addition loses no update", "statement": "For every number of threads adding to one location with the CAS-loop fetch_add, every interleaving (including spurious failures) ends with the initial value plus the sum of all completed additions, and the values returned are the intermediate values in completion order.", "quantifier": "every number of threads, amounts and interleaving", "why_tests_cant": "unbounded schedules", "anchors": ["include/nwgraph/util/atomic.hpp: fetch_add, cas"]}
{"id": "C49", "title": "proxysort returns the sorting permutation", "statement": "proxysort(x) returns a permutation p of the indices such that x[p[0]], x[p[1]], ... is sorted by the comparison.", "quantifier": "every vector, comparison and conforming sort", "why_tests_cant": "universal over inputs", "anchors": ["include/nwgraph/util/proxysort.hpp: proxysort"]}
{"id": "C50", "title": "Cyclic ranges partition the underlying range", "statement": "Every tree of splits of a cyclic range yields sub-ranges that together visit each element of the underlying range exactly once; each sub-range's iteration terminates at its end iterator and size() is the number of elements it visits, including sub-ranges that start past the end.", "quantifier": "every range length, every split tree, every cutoff", "why_tests_cant": "run-time splitting decisions; the wrap-around arithmetic for short ranges", "anchors": ["include/nwgraph/adaptors/cyclic_range_adaptor.hpp", "include/nwgraph/adaptors/cyclic_neighbor_range.hpp"]}
{"id": "C51", "title": "Splitting a block range neither loses nor repeats elements", "statement": "Every tree of splits of a splittable_range_adaptor, plain_range, neighbor_range, edge_range or bit-vector range yields consecutive sub-ranges that together visit each element exactly once and whose splitting terminates when only divisible ranges are split.", "quantifier": "every range length, every split tree", "why_tests_cant": "run-time splitting decisions", "anchors": ["include/nwgraph/adaptors/splittable_range_adaptor.hpp", "include/nwgraph/adaptors/plain_range.hpp", "include/nwgraph/adaptors/neighbor_range.hpp", "include/nwgraph/adaptors/edge_range.hpp"]}
{"id": "C52", "title": "Splitting a vertex_range partitions the vertices", "statement": "Splitting a vertex_range divides its vertices between the two halves, and repeated splitting of divisible ranges terminates.", "quantifier": "every number of vertices and split tree", "why_tests_cant": "fails for every non-empty range", "anchors": ["include/nwgraph/adaptors/vertex_range.hpp: vertex_range"]}
{"id": "C53", "title": "edge_range enumerates every stored edge once", "statement": "Iterating edge_range(g) yields, for each vertex u in order, each entry of u's neighbourhood in order as (u, v, attributes), skipping empty neighbourhoods, and then stops.", "quantifier": "every graph with in-bounds rows, any pattern of empty rows", "why_tests_cant": "patterns of empty neighbourhoods of any length at any place", "anchors": ["include/nwgraph/adaptors/edge_range.hpp"]}
{"id": "C54", "title": "topdown_bfs_range visits the reachable vertices once in BFS order", "statement": "Iterating topdown_bfs_range(g, s) yields every vertex reachable from s exactly once, in order of non-decreasing distance from s, and terminates.", "quantifier": "every graph with in-range neighbours, every seed", "why_tests_cant": "universal over graphs", "anchors": ["include/nwgraph/adaptors/bfs_range.hpp: topdown_bfs_range"]}
{"id": "C55", "title": "bfs_edge_range yields the edges of a BFS tree", "statement": "Iterating bfs_edge_range(g, s) yields exactly one edge into each reachable vertex other than s, from a vertex that is one level closer to s, in order of non-decreasing distance, and stops; this includes seeds with no neighbours.", "quantifier": "every graph with in-range neighbours, every seed", "why_tests_cant": "fails only for seeds whose first edge is missing or a self loop", "anchors": ["include/nwgraph/adaptors/bfs_edge_range.hpp: bfs_edge_range"]}
{"id": "C56", "title": "dfs_range visits each vertex once and terminates", "statement": "Iterating dfs_range(g, s) visits every vertex exactly once and stops.", "quantifier": "every graph and seed", "why_tests_cant": "the non-termination occurs on vertices without out-edges", "anchors": ["include/nwgraph/adaptors/new_dfs_range.hpp: dfs_range"]}
{"id": "C57", "title": "Work list iteration is first-in first-out and complete", "statement": "Iterating a worklist_range delivers every item ever pushed, including those pushed while iterating, exactly once and in push order, and stops when nothing is left.", "quantifier": "every initial content, every behaviour of the loop body", "why_tests_cant": "unbounded dynamic pushes", "anchors": ["include/nwgraph/adaptors/worklist.hpp: worklist_range"]}
{"id": "C58", "title": "Concurrent work list iteration delivers every item", "statement": "Iterating a tbbworklist_range delivers every item pushed.", "quantifier": "every content", "why_tests_cant": "fails for every non-empty content", "anchors": ["include/nwgraph/adaptors/worklist.hpp: tbbworklist_range, tbbworklist_range2"]}
{"id": "C59", "title": "reverse_path walks the predecessor chain", "statement": "Iterating reverse_path(path, start, stop) yields start and then each predecessor in turn up to, but not including, stop, whenever stop is on the predecessor chain of start.", "quantifier": "every predecessor array, start and stop (including start = stop)", "why_tests_cant": "chains of any length", "anchors": ["include/nwgraph/adaptors/reverse.hpp: reverse_path"]}
{"id": "C60", "title": "random_range performs a walk in the graph", "statement": "For every outcome of the random generator, iterating random_range(g, n, first) yields n vertices starting with first, each consecutive pair being an edge of g, provided every visited vertex has a neighbour.", "quantifier": "every graph, length and random outcome", "why_tests_cant": "random outcomes cannot be enumerated", "anchors": ["include/nwgraph/adaptors/random_range.hpp: random_range"]}
{"id": "C61", "title": "dag_range processes a DAG in topological order", "statement": "Iterating dag_range over an acyclic predecessor/successor structure visits every edge exactly once, never leaves a vertex before all edges into it have been visited, flags a successor as ready exactly on its last incoming edge, and terminates without reading outside its lists.", "quantifier": "every acyclic structure with consistent predecessor and successor lists", "why_tests_cant": "universal over DAGs", "anchors": ["include/nwgraph/adaptors/dag_range.hpp: dag_range"]}
{"id": "C62", "title": "Reading a Matrix Market file yields the matrix it describes", "statement": "Reading a coordinate Matrix Market text yields exactly the entries listed, shifted to zero-based ids, plus, for a symmetric file read as a directed graph, the mirror image of every off-diagonal entry; vertex count at least the declared size.", "quantifier": "every well-formed file with any number of comment lines and entries", "why_tests_cant": "unbounded file contents", "anchors": ["include/nwgraph/io/mmio.hpp: read_mm, mm_fill"]}
{"id": "C63", "title": "Writing and reading Matrix Market round-trips", "statement": "write_mm followed by read_mm gives back the same edge list (same vertex count, same edges in order), for directed lists in general format and undirected lists in the default and the symmetric format.", "quantifier": "every edge list", "why_tests_cant": "fails for every non-empty undirected list in the default format", "anchors": ["include/nwgraph/io/mmio.hpp: write_mm, aos_stream, read_mm, mm_fill"]}
{"id": "C64", "title": "Parallel delta stepping returns shortest path distances", "statement": "The parallel delta_stepping(graph, source, delta) ends under every schedule and returns for every vertex the least total weight of a path from the source (infinity when unreachable), for every positive delta.", "quantifier": "every graph with non-negative integer weights, every source, every positive delta, every interleaving of the relaxations", "why_tests_cant": "an uninitialised flag is read whenever an edge does not improve a distance; races between relaxations cannot be enumerated", "anchors": ["include/nwgraph/algorithms/delta_stepping.hpp: delta_stepping (parallel)"]}
{"id": "C65", "title": "disjoint_set: path compression and root combination keep the partition", "statement": "find_with_pathcompression(x) returns the representative of the set of x, leaves every set as it was and links x directly to its representative; combineBySize and combineByHeight of two representatives put exactly these two sets together, hanging the smaller under the larger, and keep the stored sizes (ranks) right.", "quantifier": "every valid structure, every element, every pair of representatives", "why_tests_cant": "holds for every forest, whatever its depth", "anchors": ["include/nwgraph/util/disjoint_set.hpp: class disjoint_set: find_with_pathcompression, combineBySize, combineByHeight"]}
{"id": "C66", "title": "is_mm and get_mm_symmetry agree with read_mm", "statement": "For every file that read_mm accepts, is_mm returns true and get_mm_symmetry returns undirected exactly when the file is symmetric.", "quantifier": "every well-formed file", "why_tests_cant": "unbounded file contents", "anchors": ["include/nwgraph/io/mmio.hpp: is_mm, get_mm_symmetry"]}
{"id": "C67", "title": "Writing an adjacency as Matrix Market and reading it gives its edges", "statement": "write_mm of a compressed adjacency followed by read_mm as a directed graph gives an edge list with the same vertex count and the edges of the adjacency in row order.", "quantifier": "every adjacency, of either index", "why_tests_cant": "fails for every adjacency constructed from an edge list alone", "anchors": ["include/nwgraph/io/mmio.hpp: write_mm (adjacency), adjacency_stream"]}
{"id": "C68", "title": "read_mm_vector returns the values of the file", "statement": "read_mm_vector of an array file with one column returns the listed values in order.", "quantifier": "every array file of integers", "why_tests_cant": "unbounded file contents", "anchors": ["include/nwgraph/io/mmio.hpp: read_mm_vector"]}
{"id": "C69", "title": "dag_based_mis computes a maximal independent set", "statement": "After dag_based_mis(A, mis), mis marks a set of vertices no two of which are joined by an edge and such that every other vertex is joined to a marked one, whatever mis held before.", "quantifier": "every graph, whether an edge is stored once or in both directions, and every initial vector", "why_tests_cant": "depends on the topological processing of an orientation of an arbitrary graph; the test passes the one initial vector for which the result is maximal", "anchors": ["include/nwgraph/algorithms/dag_based_mis.hpp: dag_based_mis"]}
{"id": "C70", "title": "tbbworklist_range2 delivers lower buckets first", "statement": "If every item is pushed into the bucket of its level and the loop body only pushes items of the level being processed or a later one, the items are delivered in order of their levels.", "quantifier": "every initial contents, every loop body and every level function", "why_tests_cant": "the order depends on the whole history of pushes made by an arbitrary loop body", "anchors": ["include/nwgraph/adaptors/worklist.hpp: tbbworklist_range2"]}
{"id": "C71", "title": "page_rank converges to the PageRank vector", "statement": "In exact arithmetic, if row i lists the vertices linking to i and degrees are at least the numbers of links and positive where used, there is exactly one PageRank vector, and page_rank ends under every schedule after k <= max_iters rounds with a relative error of at most (1-(1-d)/n)^k/(1-d); if it stops early, the relative error is at most threshold*n^2/(1-d)^2.", "quantifier": "every graph with a vertex, damping factor in [0,1), threshold, iteration limit and interleaving of the threads", "why_tests_cant": "threads read contributions other threads are overwriting in the same round, so the iterates depend on the schedule; convergence is a statement about all of them", "anchors": ["include/nwgraph/algorithms/page_rank.hpp: page_rank"]}
{"id": "C72", "title": "back_edge_range gives every edge a counterpart", "statement": "A loop over the edges of v in a back_edge_range delivers the stored edges of v and one extra edge to each u with an edge to v but none from v; for each edge from v to u, get_back_edge(v, u) refers, at any time and in both modes, to the first stored edge from u to v, or else to the extra edge that the loop over the edges of u delivers.", "quantifier": "every graph with neighbours in range, both modes of the constructor and every history of calls", "why_tests_cant": "the maps are filled in an order that depends on the whole graph and on the history of calls", "anchors": ["include/nwgraph/adaptors/back_edge_range.hpp: back_edge_range, get_back_edge"]}
{"id": "C73", "title": "max_flow finds a maximum flow", "statement": "max_flow(A, source, sink, max_iters) ends without undefined behaviour, leaves a flow within the capacities on the arcs and returns its value, and no flow from source to sink has a larger value.", "quantifier": "every network, every feasible flow at the beginning, every source and sink, every limit of the iterations", "why_tests_cant": "maximality compares with all other flows, and flow that has been sent may have to be taken back", "anchors": ["include/nwgraph/algorithms/max_flow.hpp: max_flow", "include/nwgraph/adaptors/filtered_bfs_range.hpp: filtered_bfs_edge_range", "include/nwgraph/adaptors/reverse.hpp: reverse_path"]}
{"id": "C74", "title": "bk_maxflow finds the value of a minimum cut", "statement": "bk_maxflow(A, cap) ends without undefined behaviour and returns the value of a maximum flow in the network in which a vertex with a positive number hangs on the source and one with a negative number on the terminal, minus the capacity into the terminal.", "quantifier": "every graph with non-negative capacities, every vector of numbers for the vertices", "why_tests_cant": "maximality compares with all flows, and the trees, timestamps and distances that the search reuses depend on everything that happened before", "anchors": ["include/nwgraph/algorithms/boykov_kolmogorov.hpp: bk_maxflow", "include/nwgraph/adaptors/back_edge_range.hpp: back_edge_range"]}
{"id": "C75", "title": "bfs_edge_range3 yields the edges of a breadth-first search tree", "statement": "Iterating bfs_edge_range3(graph, seed) ends. If the seed has a neighbour other than itself it yields pairs (parent, child): one for every reachable vertex other than the seed, along an edge from a vertex one level closer, in order of non-decreasing distance. Otherwise it yields the single pair (seed, seed).", "quantifier": "every graph, every seed", "why_tests_cant": "which vertices are reachable and at what distance depends on the whole graph; the two queues interleave differently on every graph", "anchors": ["include/nwgraph/adaptors/bfs_edge_range.hpp: bfs_edge_range3"]}
{"id": "C76", "title": "dijkstra_er returns the shortest distances", "statement": "dijkstra_er(graph, source) returns for every vertex the length of a shortest path from the source.", "quantifier": "every weighted graph with non-negative weights, every source", "why_tests_cant": "minimality compares with all paths, and the iterator and the caller share one queue", "anchors": ["include/nwgraph/algorithms/dijkstra.hpp: dijkstra_er", "include/nwgraph/adaptors/bfs_edge_range.hpp: bfs_edge_range2"]}
{"id": "C77", "title": "bottomup_bfs_range visits the reachable vertices with a parent closer to the seed", "statement": "Iterating bottomup_bfs_range(graph, seed) ends and yields every vertex reachable from the seed once, together with a neighbour that was yielded before, in order of distance.", "quantifier": "every graph, every seed", "why_tests_cant": "which vertices are reachable and which neighbours come earlier depends on the whole graph", "anchors": ["include/nwgraph/adaptors/bfs_range.hpp: bottomup_bfs_range"]}
{"id": "C78", "title": "configuration_model returns a bipartite graph with the given degrees", "statement": "For two degree sequences with the same sum, configuration_model returns an edge list in which every vertex of the first set is the source, and every vertex of the second set the target, of as many edges as its degree says. For sequences with different sums it returns an empty edge list.", "quantifier": "all degree sequences, all outcomes of the random shuffles", "why_tests_cant": "the shuffle is random and the sequences are arbitrary", "anchors": ["include/nwgraph/generators/configuration_model.hpp: configuration_model"]}
{"id": "C79", "title": "k_core returns the k-core", "statement": "k_core(A, k) returns the number of vertices of the k-core of A, the largest set of vertices each of which has at least k neighbours in the set, and the edges outside it.", "quantifier": "every undirected graph, every k", "why_tests_cant": "the k-core is the largest of all subsets with the property, and removing one edge can cascade through the graph", "anchors": ["include/nwgraph/algorithms/k_core.hpp: k_core", "include/nwgraph/adaptors/new_dfs_range.hpp: dfs_edge_range"]}
{"id": "C80", "title": "Every experimental triangle count returns the number of triangles", "statement": "Each of the functions triangle_count_vc, v1, v15, v2, v3, v4, v5, v6, v7, v10, v12, v13, v14, edgesplit and edgesplit_upper returns the number of triangles of a simple graph given by its upper triangular, sorted adjacency; those not documented as upper-only also for the lower triangular one. This holds for every number of threads, every split of the range and every order of the atomic additions.", "quantifier": "every simple graph, thread count, stride, splitting of the work and order of the updates", "why_tests_cant": "the number of triangles, splittings and schedules is unbounded", "anchors": ["include/nwgraph/experimental/algorithms/triangle_count.hpp: triangle_count_vc, triangle_count_v1 to v15, triangle_count_edgesplit, triangle_count_edgesplit_upper", "include/nwgraph/util/parallel_for.hpp: parallel_reduce"]}
{"id": "C81", "title": "A bipartite adjacency holds exactly the edges of the bipartite list", "statement": "After any sequence of pushes to a bipartite edge list, a biadjacency<idx> of the list has the vertices of part idx, knows the size of the other part, and for each vertex yields exactly the pushed edges at it, with multiplicity and attributes; iterating over it visits each vertex of the part once; the two biadjacencies of a list are each other's transpose; with sort_biadjacency the neighbours of each vertex are in increasing order.", "quantifier": "every sequence of edges, declared sizes, part, schedule of the counting and conforming sort", "why_tests_cant": "edges, sizes, schedules and sorts are unbounded", "anchors": ["include/nwgraph/adjacency.hpp: index_biadjacency, make_biadjacency, num_vertices", "include/nwgraph/build.hpp: fill_biadjacency, fill_directed, fill_undirected, degrees", "include/nwgraph/edge_list.hpp: bi_edge_list, push_back"]}
{"id": "C82", "title": "Bipartite graphs survive Matrix Market files", "statement": "Reading a general coordinate file into a bipartite edge list gives exactly the listed entries with zero-based ids and parts of the declared sizes; writing a bipartite adjacency gives a file listing its edges with one-based coordinates and the sizes of its parts; writing and reading back gives the same graph.", "quantifier": "every well-formed file and every bipartite adjacency", "why_tests_cant": "files and graphs are unbounded", "anchors": ["include/nwgraph/io/mmio.hpp: mm_fill, read_mm, adjacency_stream, write_mm", "include/nwgraph/adjacency.hpp: biadjacency"]}
{"id": "C83", "title": "The experimental level-by-level searches return breadth-first trees under every schedule", "statement": "bfs_v6, bfs_v7, bfs_v8, bfs_v9, bfs_top_down, bfs_top_down_bitmap and bfs_bottom_up end, without reading or writing outside their arrays and bins, and return a parent for exactly the vertices reachable from the root; every parent link is an edge leading one step away from the root. The versions that claim a vertex before enqueuing it never enqueue a vertex twice.", "quantifier": "every graph, root and interleaving of the atomic steps", "why_tests_cant": "graphs and interleavings are unbounded, and the checks and writes of several versions race", "anchors": ["include/nwgraph/experimental/algorithms/bfs.hpp: bfs_v6, bfs_v7, bfs_v8, bfs_v9, bfs_top_down, bfs_top_down_bitmap, bfs_bottom_up"]}
{"id": "C84", "title": "The experimental direction-optimizing searches return breadth-first trees under every schedule", "statement": "bfs_v1 and bfs_v2 of the experimental directory end, without reading or writing outside their arrays and per-thread queues, and return a parent for exactly the vertices reachable from the root; every parent link is an edge leading one step away from the root. (False of bfs_v2 as written, which reads a bit vector it does not initialise, and of both with more threads than bins.)", "quantifier": "every graph with its transpose, root, alpha, beta, number of bins, number of threads, content of uninitialised memory and interleaving of the atomic steps", "why_tests_cant": "graphs, interleavings, placements of tasks on threads and contents of uninitialised memory are unbounded", "anchors": ["include/nwgraph/experimental/algorithms/bfs.hpp: bfs_v1, bfs_v2, BU_step, TD_step, queue_to_bitmap, bitmap_to_queue, flush"]}
{"id": "C85", "title": "The experimental connected components that link and compress label weak components under every schedule", "statement": "ccv1, compute_connected_components_v2, Afforest and ccv5 of the experimental directory end, without reading or writing outside the label array, and return for every vertex the least vertex of its connected component, so that two vertices have equal labels exactly if a path joins them. ccv1 and compute_connected_components_v2 do so for directed graphs too (edges taken both ways), Afforest if given the transpose. (False of ccv5 on directed graphs.)", "quantifier": "every graph, with its transpose or symmetric where needed, every neighbour bound, every sampled label and every interleaving of the atomic steps of all threads", "why_tests_cant": "graphs, interleavings of concurrent links and compressions, and sampled labels are unbounded", "anchors": ["include/nwgraph/experimental/algorithms/connected_components.hpp: hook, compress, push, link, pull, compute_connected_components_v2, ccv1, Afforest, ccv5"]}
{"id": "C86", "title": "The experimental Shiloach-Vishkin loops label weak components under every schedule, although they link without compare-and-swap", "statement": "sv_v6, sv_v8 and sv_v9 of the experimental directory end within as many iterations as there are vertices, without reading or writing outside the label array, and return for every vertex the least vertex of its connected component (edges taken both ways), so that two vertices have equal labels exactly if a path joins them, even when concurrent links of the same root overwrite each other.", "quantifier": "every graph, directed or not, every division of the edges among threads and every interleaving of their reads and writes", "why_tests_cant": "graphs, divisions of the edges and interleavings are unbounded; a link that is lost to a race must be made up for in a later iteration in every case", "anchors": ["include/nwgraph/experimental/algorithms/connected_components.hpp: sv_v6, sv_v8, sv_v9"]}
{"id": "C87", "title": "The experimental label propagation gives every vertex the least label that can reach it, under every schedule", "statement": "lpcc and lpcc_cyclic of the experimental directory end, without reading or writing outside their arrays and per-thread lists, and return for every vertex the least vertex from which it can be reached; on a symmetric graph this is the least vertex of its connected component. (False, as regards the per-thread lists, with more threads than bins; on directed graphs the labels are not those of weak components.)", "quantifier": "every graph, number of bins, number of threads, placement of the work on threads and interleaving of the atomic steps", "why_tests_cant": "graphs, interleavings of concurrent label updates, and placements of tasks on threads are unbounded", "anchors": ["include/nwgraph/experimental/algorithms/connected_components.hpp: writeMin, lpcc, lpcc_cyclic"]}
{"id": "C88", "title": "The two remaining experimental connected-components functions label exactly the components", "statement": "compute_connected_components and compute_connected_components_v1 of the experimental directory end without reading or writing outside their arrays and give two vertices the same label exactly when they are connected. (False: equal labels do imply connection, but on a symmetric graph with one edge the first, and on a symmetric path-like graph of six vertices the second with a single thread, give connected vertices different labels.)", "quantifier": "every graph and, for the second, every interleaving of the atomic steps", "why_tests_cant": "graphs and interleavings are unbounded", "anchors": ["include/nwgraph/experimental/algorithms/connected_components.hpp: compute_connected_components, compute_connected_components_v1"]}
{"id": "C89", "title": "BCVerifier accepts exactly the betweenness scores", "statement": "BCVerifier ends without reading or writing outside its arrays and returns true exactly when every entry of the tested vector is within the tolerance of the betweenness of the vertex with respect to the given sources (normalised by the largest one on request). (False: a vertex that is a source is expected to have in addition the number of vertices it reaches; an integral counting type accepts everything off by less than one; if no source reaches another vertex normalisation accepts every vector.)", "quantifier": "every graph, list of sources and tested vector", "why_tests_cant": "the graphs, source lists and score vectors are unbounded", "anchors": ["include/nwgraph/algorithms/betweenness_centrality.hpp: BCVerifier"]}
{"id": "C90", "title": "The experimental delta stepping routines return the distances", "statement": "delta_stepping_v6, _v8, _v9, _v10 and _v11 end without reading or writing outside their arrays, under every schedule and however the library cuts the frontier into blocks, and return the least weight of a path from the source to every vertex, the largest value where there is none. (False of v6: two threads that both saw an old distance can leave the larger one; false of v9, v10, v11: they read an uninitialised flag.)", "quantifier": "every graph, weighting, source, positive step width and schedule", "why_tests_cant": "the interleavings of the threads and the cuts of the frontier are unbounded", "anchors": ["include/nwgraph/experimental/algorithms/delta_stepping.hpp: delta_stepping_v6, delta_stepping_v8, delta_stepping_v9, delta_stepping_v10, delta_stepping_v11"]}
{"id": "C91", "title": "The experimental PageRank versions approximate the PageRank vector", "statement": "page_rank_vc, _v1, _v4, _v6, _v7, _v8, _v9, _v10 and _v14 end without reading or writing outside their arrays, under every schedule, for every number of threads and however the library shares out the vertices. They run at most max_iters rounds. The scores agree with the PageRank vector up to the relative error (1-(1-d)/n)^rounds/(1-d), and up to threshold*n^2/(1-d)^2 if they stop early.", "quantifier": "every graph whose degrees count at least the links, damping factor in [0,1), threshold, number of rounds, number of threads and schedule", "why_tests_cant": "the interleavings, the numbers of rounds and the ways to share out the vertices are unbounded", "anchors": ["include/nwgraph/experimental/algorithms/page_rank.hpp: page_rank_vc, page_rank_v1, page_rank_v4, page_rank_v6, page_rank_v7, page_rank_v8, page_rank_v9, page_rank_v10, page_rank_v14", "include/nwgraph/adaptors/edge_range.hpp: edge_range"]}
{"id": "C92", "title": "page_rank_v2 approximates the PageRank vector although it begins without contributions", "statement": "page_rank_v2 ends without reading or writing outside its arrays after at most max_iters rounds. The scores agree with the PageRank vector up to the relative error (1-(1-d)/n)^rounds/(1-d), and up to threshold*n^2/(1-d)^2 if it stops early, also if it stops after the first round.", "quantifier": "every graph whose degrees count at least the links, damping factor in [0,1), threshold and number of rounds", "why_tests_cant": "the number of rounds until the threshold is met is unbounded, and the error is compared with an exact solution", "anchors": ["include/nwgraph/experimental/algorithms/page_rank.hpp: page_rank_v2"]}
{"id": "C93", "title": "page_rank_v3, page_rank_v12 and page_rank_v13 approximate the PageRank vector", "statement": "The scores of the versions that leave out small contributions or residuals approximate the PageRank vector, under every schedule. (False: page_rank_v12 ignores all links when the threshold is at least 1/n; the scores of page_rank_v3 and page_rank_v13 add up to more than one when n(1-d) > 1.)", "quantifier": "every graph whose degrees count at least the links, damping factor in [0,1), threshold, number of rounds and schedule", "why_tests_cant": "the numbers of rounds and the interleavings are unbounded, and the error is compared with an exact solution", "anchors": ["include/nwgraph/experimental/algorithms/page_rank.hpp: page_rank_v3, page_rank_v12, page_rank_v13"]}
{"id": "C94", "title": "bc2_v1 and approx_betweenness_brandes return the betweenness with respect to the sources", "statement": "The two sequential experimental routines end without reading or writing outside their arrays. The score of every vertex is the sum, over the given sources other than it and over all targets other than it, of the fraction of shortest paths that pass through it, divided by the largest score (bc2_v1: if asked to).", "quantifier": "every non-empty graph and every list of sources, also with repetitions, whose numbers of shortest paths fit the counting type", "why_tests_cant": "the numbers of shortest paths and the phases are unbounded", "anchors": ["include/nwgraph/experimental/algorithms/betweenness_centrality.hpp: approx_betweenness_brandes, bc2_v1"]}
{"id": "C95", "title": "bc2_v0 returns the betweenness with respect to the sources", "statement": "bc2_v0 returns the same scores as bc2_v1. (False: a source that reaches other vertices gets their number on top, for every time it occurs among the sources.)", "quantifier": "every non-empty graph and every list of sources whose numbers of shortest paths fit the counting type", "why_tests_cant": "the numbers of shortest paths and the phases are unbounded", "anchors": ["include/nwgraph/experimental/algorithms/betweenness_centrality.hpp: bc2_v0"]}
{"id": "C96", "title": "bc2_v3 and bc2_v4 return the betweenness with respect to the sources", "statement": "Under every scheduling of their parallel loops the two routines end without reading or writing outside their arrays and return the betweenness of every vertex with respect to the sources, divided by the largest score if asked to. (False: a source that reaches other vertices gets their number on top for every time it occurs among the sources; with an integral counting type bc2_v4 also rounds the quotients of path counts down.)", "quantifier": "every non-empty graph, every list of sources whose numbers of shortest paths fit the counting type, every number of bins, every interleaving of the tasks", "why_tests_cant": "the number of interleavings is unbounded", "anchors": ["include/nwgraph/experimental/algorithms/betweenness_centrality.hpp: bc2_v3, bc2_v4"]}
{"id": "C97", "title": "bc2_v2 returns the betweenness with respect to the sources", "statement": "Under every scheduling of its parallel loops the routine ends without reading or writing outside its arrays and returns the betweenness of every vertex with respect to the sources, divided by the largest score if asked to. (False: the path counts are raised without synchronisation; on the square 0-1-3, 0-2-3 there is a schedule in which one of the two additions to the count of vertex 3 is lost, and vertices 1 and 2 get the score 1 instead of 1/2. True of graphs in which every vertex has at most one shortest path from each source.)", "quantifier": "every non-empty graph, every list of sources, every interleaving of the tasks of the edges", "why_tests_cant": "the number of interleavings is unbounded, and most of them do not lose an update", "anchors": ["include/nwgraph/experimental/algorithms/betweenness_centrality.hpp: bc2_v2"]}
{"id": "C98", "title": "Zipped columns behave like an array of tuples", "statement": "Whatever an algorithm does through the iterators of a struct of arrays or of a zip of ranges (reads, assignments, swaps), it computes the same result as on an array of tuples, and afterwards the columns are those of that array; entries beyond the end of the first column are never touched. In particular sorting the range moves the entries of all columns in the same way. A column shorter than the first is read past its end.", "quantifier": "every number and type of columns, all contents, every algorithm that uses the iterators", "why_tests_cant": "the algorithms (std::sort, std::unique, ...) and the contents are arbitrary", "anchors": ["include/nwgraph/containers/zip.hpp: zipped, make_zipped", "include/nwgraph/containers/soa.hpp: struct_of_arrays", "include/nwgraph/util/tuple_hack.hpp: swap"]}
{"id": "C99", "title": "The sorting helpers of edge lists rearrange the edges into the requested order", "statement": "sort_by, stable_sort_by, lexical_sort_by and lexical_stable_sort_by rearrange the edges together with their properties and change nothing else; afterwards the edges are ordered by the chosen endpoint, or lexicographically; the stable variants keep the order of edges with equal keys. Lexical sorting followed by uniq leaves exactly one edge per pair of endpoints. permute and degrees of a graph give the same result under every schedule.", "quantifier": "every edge list, every sorting algorithm that meets the contract of std::sort or std::stable_sort, every schedule of the loops", "why_tests_cant": "edge lists are unbounded and the result of std::sort is not determined by its contract", "anchors": ["include/nwgraph/build.hpp: sort_by, stable_sort_by, lexical_sort_by, lexical_stable_sort_by, permute, swap_to_triangular, degrees, uniq"]}
{"id": "C100", "title": "jones_plassmann_coloring2 gives joined vertices different colours", "statement": "On every non-empty graph without loops the routine ends without a fault and colours every vertex so that the ends of an edge have different colours. (False: on every graph whose edges are stored in both directions all vertices get the colour 0, because the search for a free colour takes the value of a counter instead of its index.)", "quantifier": "every graph without loops, every previous content of the vector of colours", "why_tests_cant": "the claim is about every edge of every graph", "anchors": ["include/nwgraph/experimental/algorithms/jones_plassmann_coloring.hpp: jones_plassmann_coloring2"]}
{"id": "C101", "title": "UnionBySplicing puts exactly the connected elements into one set", "statement": "After every element has been made a singleton with reset(i), every sequence of calls of UnionBySplicing ends without a fault, and two elements are then in the same set exactly if the calls connect them. (False: UnionBySplicing(0, 1) and then UnionBySplicing(0, 2) leaves 1 on its own. What holds: elements in the same set are connected by the calls, the two elements of the last call are in the same set, and a call whose two arguments are roots puts their two sets together and changes nothing else.)", "quantifier": "every number of elements, every sequence of calls", "why_tests_cant": "the claim is about every history of calls", "anchors": ["include/nwgraph/util/disjoint_set.hpp: disjoint_set::UnionBySplicing, disjoint_set::reset"]}
{"id": "C102", "title": "getCompactDisjSets numbers the different entries", "statement": "getCompactDisjSets() gives two elements the same label exactly if their entries are equal, and the labels are exactly the numbers from 1 to the number of different entries.", "quantifier": "every content of the array", "why_tests_cant": "the claim is about every pair of elements of every array", "anchors": ["include/nwgraph/util/disjoint_set.hpp: disjoint_set::getCompactDisjSets"]}
{"id": "C103", "title": "A memory-mapped Matrix Market file can be read in parts", "statement": "mmio::MatrixMarketFile opens every coordinate file (with its numbers of rows, columns and entries and its symmetry), and for every way to cut the numbers 0 to nnz into consecutive ranges, the ranges edges(b, e) read one after the other give every entry of the file exactly once and in order, with zero-based coordinates and its value, although the position of an entry in the file is only guessed. (Proved for files in which every line ends with a newline and the sizes directly follow the comments. False otherwise: with a blank line before the sizes the first entry is read twice, with a comment behind such a line opening the file never ends, and going on behind a last line without a newline reads outside the mapping.)", "quantifier": "every content, every cut into ranges, every monotone approximation of positions in floating point, every reader of values", "why_tests_cant": "the claim is about every file and every cut into ranges", "anchors": ["include/nwgraph/io/MatrixMarketFile.hpp: MatrixMarketFile, MatrixMarketFile::edges, MatrixMarketFile::at, MatrixMarketFile::iterator", "include/nwgraph/io/mmio_nist.h: mm_read_banner, mm_read_mtx_crd_size"]}
{"id": "C104", "title": "build_random_sources returns n vertices with edges", "statement": "build_random_sources(graph, n, seed) ends and returns n vertices of the graph, each with at least one edge. (Proved: as long as the generator gives vertices, the result are the first n values with an incoming edge, and build_degrees counts incoming edges under every schedule. False in general: the distribution includes the number of vertices itself, which reads the degrees out of bounds; the search never ends if there are no such vertices; and a source without outgoing edges can be chosen in a directed graph.)", "quantifier": "every graph, every sequence of random numbers, every schedule of the increments", "why_tests_cant": "the claim is about every seed and schedule", "anchors": ["bench/common.hpp: build_degrees, build_random_sources"]}
{"id": "C105", "title": "load_graph returns the graph in the file, in both formats", "statement": "load_graph(file) of a file written by serialize returns that edge list; of a coordinate Matrix Market file it returns the entries of the file, as read_mm does. load_sources_from_file(graph, file, n) returns the vertices in the file, and ends the program if n is given and differs from their number.", "quantifier": "every edge list that fits in memory, every Matrix Market file, every n", "why_tests_cant": "the claim is about every file", "anchors": ["bench/common.hpp: load_graph, load_sources_from_file", "include/nwgraph/edge_list.hpp: serialize", "include/nwgraph/io/mmio.hpp: read_mm, read_mm_vector"]}
{"id": "C106", "title": "approx_betweenness_worklist_serial computes betweenness", "statement": "approx_betweenness_worklist_serial(A, sources) ends and returns, divided by the largest one, the betweenness of every vertex with respect to the sources, in the graph where parallel edges count once; without parallel edges this is the result of the other versions. (With parallel edges it differs from them; on a graph without vertices it dereferences the end of an empty range.)", "quantifier": "every graph with fewer vertices than the number that marks unreached vertices, every list of sources, every order in which the unordered sets are visited", "why_tests_cant": "the claim is about every graph and every order of the hash sets", "anchors": ["include/nwgraph/experimental/algorithms/betweenness_centrality.hpp: approx_betweenness_worklist_serial"]}
{"id": "C107", "title": "approx_betweenness_worklist computes betweenness on any number of threads", "statement": "approx_betweenness_worklist(A, sources, num_threads, DELTA) ends without a fault or deadlock for every interleaving of its threads and returns the betweenness of every vertex with respect to the sources (not normalised, parallel edges counted once). (It does not: a thread takes an item and leaves without treating it if the work list has become empty, so the last item of every search and the last vertex of every way back is lost; from a source with one edge nothing is ever reached. What holds is that the search ends, is exact whenever the lost items would change nothing, and that on the way back every score grows by the whole dependency or not at all. A loop makes a thread lock one vertex twice and wait for ever.)", "quantifier": "every graph, every source, every number of threads and every interleaving of their steps", "why_tests_cant": "the claim is about every schedule of an asynchronous search in which levels and path counts are corrected again and again", "anchors": ["include/nwgraph/experimental/algorithms/betweenness_centrality.hpp: approx_betweenness_worklist", "include/nwgraph/adaptors/worklist.hpp: WorkList"]}
{"id": "C108", "title": "approx_betweenness_worklist_noabstraction computes betweenness on any number of threads", "statement": "approx_betweenness_worklist_noabstraction(A, sources, num_threads, par_thresh, DELTA) ends without a fault or deadlock for every schedule of its threads and returns, divided by the largest one, the betweenness of every vertex with respect to the sources, parallel edges counted once. (It does not: at the end of every search it reads the bucket after the last one. If that read is harmless the claim holds for one source, and with more than one thread only in graphs without loops; with more than one source, records of the edges kept from the previous source make path counts wrong.)", "quantifier": "every graph, every source, every number of threads, threshold and DELTA > 0, every order of the items of a parallel round and every interleaving of the threads on the way back", "why_tests_cant": "the claim is about every order in which the items of a round are treated and every interleaving of threads with private buffers and locks that are never released", "anchors": ["include/nwgraph/experimental/algorithms/betweenness_centrality.hpp: approx_betweenness_worklist_noabstraction"]}
{"id": "C109", "title": "The triangle counting benchmark reports the number of triangles of the graph that was read", "statement": "tc reports the number of triangles of the simple graph under the edges of the file (loops and repeated edges do not count), whichever version is chosen, with any number of threads, any --format, with --relabel, --heuristic or --lower or without; --verify computes the same number. (False for --lower: the default version and six others report 0 for every graph. --verify writes beyond the end of a vector whenever there is a triangle. --relabel --heuristic divides by zero on a graph without vertices.)", "quantifier": "every edge list, every combination of the options, every version and number of threads, every result of the library's unstable sorts and every random draw, every schedule", "why_tests_cant": "the result must not depend on the order of vertices of equal degree, on the sorts or on the schedule, for every graph", "anchors": ["bench/tc.cpp: main, clean, compress, tc_relabel, worth_relabeling, TCVerifier", "include/nwgraph/build.hpp: relabel_by_degree, swap_to_triangular, lexical_sort_by, uniq, remove_self_loops, push_back_fill", "include/nwgraph/algorithms/triangle_count.hpp: triangle_count", "include/nwgraph/experimental/algorithms/triangle_count.hpp: triangle_count_v1 ... triangle_count_v14"]}
{"id": "C110", "title": "The shortest path benchmark's verifier accepts exactly the correct results", "statement": "sssp --verify accepts the distances that an algorithm returns if and only if they are correct, for every graph and source; its own dijkstra is correct whatever the heap hands out; with -n TRIALS and -i ITERATIONS the sources are used one after the other. (False: the verifier marks unreachable vertices with max()/4, the library's algorithms with max(), so every correct result for a graph with an unreachable vertex is rejected; vectors that are too short are accepted and vectors that are too long are compared beyond the end; -r or random sources with more than one iteration read beyond the list of sources.)", "quantifier": "every weighted graph, source and vector of distances, every order in which the heap hands out vertices, every number of trials and iterations", "why_tests_cant": "the heap's comparison looks at distances that change while vertices are in the heap, so the claim is about every order; acceptance is about every graph and every vector", "anchors": ["bench/sssp.cpp: dijkstra, SSSPVerifier, sssp, main", "include/nwgraph/algorithms/delta_stepping.hpp: delta_stepping"]}
{"id": "C111", "title": "The connected components benchmark reports the components of the graph that was read", "statement": "cc prints the number of connected components of the edge list that was read, and the sizes of the five largest in descending order, whatever --relabel, --direction, --clean and --succession do to the graph, with every version, number of threads and schedule, and --verify accepts the labels. (False: versions 0 and 7 read out of bounds, and where that has no effect they report one component too many, of a vertex that does not exist; versions 10 and 11 split components of files that are not symmetric; --verify never accepts.)", "quantifier": "every edge list, every combination of the options, every version, number of threads and schedule, every order of the unordered map and every result of the unstable sorts", "why_tests_cant": "the options rename, reverse, reorder and delete edges, so the claim is about what every combination does to every graph; the versions are parallel and race on the labels", "anchors": ["bench/cc.cpp: print_top_n, main", "include/nwgraph/algorithms/connected_components.hpp: afforest, CCVerifier", "include/nwgraph/experimental/algorithms/connected_components.hpp: ccv1, compute_connected_components_v2, ccv5, sv_v6, sv_v8, sv_v9, lpcc, lpcc_cyclic", "include/nwgraph/build.hpp: relabel_by_degree, swap_to_triangular, lexical_sort_by, uniq, remove_self_loops"]}
{"id": "C112", "title": "Adjacency lists that grow hold exactly the edges pushed", "statement": "Whatever the order of the sources and whatever gaps there are between them, after any sequence of push_back(i, j, attributes...) on a vov, adj_list or adj_flist the graph has as many vertices as at first or as the largest source needs, the list of a vertex holds exactly the targets pushed for it with their attributes, in the order of the pushes (for adj_flist the latest first), and num_edges() is the number of entries; constructed from an edge list it holds its edges. (False for num_edges(), which reads an uninitialised variable, or tells an outdated number; targets can be no vertices of the graph.)", "quantifier": "every initial number of vertices, every sequence of pushes with any sources, targets and attributes; every edge list, directed or not", "why_tests_cant": "the sequences of pushes are unbounded, and the order of the sources decides when the outer vector grows", "anchors": ["include/nwgraph/vovos.hpp: vector_of_vector_of_structs, index_vov", "include/nwgraph/volos.hpp: index_adj_list", "include/nwgraph/vofos.hpp: index_adj_flist", "include/nwgraph/build.hpp: fill_adj_list, push_back_fill_helper"]}
{"id": "C113", "title": "The iterators of edge lists, zipped ranges and graphs are random access iterators", "statement": "For an edge list or any other struct_of_arrays, a zipped range, and the vertices of a compressed graph: ++, --, + and - by any distance forwards or backwards lead to the right position, all six comparisons order the positions, *i and i[d] read all the columns, or the neighbours, at the position, and i - j is the distance. (The distance is false for graphs with 2^31 or more vertices and the default index type: end() - begin() is negative.)", "quantifier": "every number and type of columns, every length, all pairs of positions from begin() to end(), all distances between them", "why_tests_cant": "the laws are about unsigned arithmetic with wrap-around, at lengths up to the limits of the types that no test allocates", "anchors": ["include/nwgraph/containers/soa.hpp: struct_of_arrays::soa_iterator", "include/nwgraph/containers/zip.hpp: zipped::soa_iterator", "include/nwgraph/containers/compressed.hpp: indexed_struct_of_arrays::my_outer_iterator"]}
{"id": "C114", "title": "The breadth-first search benchmark finds the trees of the file's graph", "statement": "Run on any graph file, with any list of versions, numbers of threads and sources, the benchmark `bfs` makes every trial, each result is a breadth-first search tree from the source along the edges of the file, and the verifier accepts it.", "quantifier": "every edge list with endpoints in range and fewer than 2^32 vertices; every list of versions, thread counts and sources; every value of -a, -b and -B; every schedule of the parallel versions; every behaviour of the sorts used to build the graphs", "why_tests_cant": "The claim ranges over all files, option combinations and schedules; the benchmark's own verifier cannot notice that both graphs are reversed, because it checks against the same reversed graphs.", "anchors": ["bench/bfs.cpp: main", "bench/common.hpp: build_adjacency", "include/nwgraph/algorithms/bfs.hpp: bfs, BFSVerifier", "include/nwgraph/experimental/algorithms/bfs.hpp: bfs_v1, bfs_v2, bfs_v6, bfs_v7, bfs_v8, bfs_v9, bfs_top_down, bfs_top_down_bitmap, bfs_bottom_up"]}
{"id": "C115", "title": "The PageRank benchmark reports the PageRank of the file's graph", "statement": "Run on any graph file, with any list of versions and numbers of threads, the benchmark `pr` reports for each pair of a number of threads and a version one score for each vertex; the scores approximate the PageRank of the graph in the file (each vertex shares its score among the edges that leave it), and with --verify it prints the vertices with the largest scores.", "quantifier": "every edge list with endpoints in range and at least one vertex; every list of versions and thread counts; every tolerance, iteration limit and number of trials; every schedule of the parallel versions; every behaviour of the sorts used to build the graph and to rank the vertices", "why_tests_cant": "The claim ranges over all files, options and schedules, and an array of scores passes from trial to trial; the benchmark does not check its scores.", "anchors": ["bench/pr.cpp: main, print_n_ranks", "bench/common.hpp: build_adjacency, build_degrees", "include/nwgraph/algorithms/page_rank.hpp: page_rank", "include/nwgraph/experimental/algorithms/page_rank.hpp: page_rank_v1, page_rank_v2, page_rank_v3, page_rank_v4, page_rank_v6, page_rank_v7, page_rank_v8, page_rank_v9, page_rank_v10, page_rank_v12, page_rank_v13, page_rank_v14", "include/nwgraph/util/proxysort.hpp: proxysort"]}
{"id": "C116", "title": "The betweenness benchmark reports the betweenness of the file's graph", "statement": "Run on any graph file, with any list of versions, numbers of threads and sources, the benchmark `bc` makes one trial for each triple of a number of threads, a version and a group of sources; each trial yields the betweenness of every vertex with respect to its sources (all vertices for the exact versions) in the graph of the file, divided by the largest one, and the verifier accepts it.", "quantifier": "every edge list with endpoints in range, at least one vertex and fewer than 2^53 shortest paths between any two vertices; every list of versions and thread counts; every partition of the sources into trials; every schedule of the parallel versions; every behaviour of the sorts used to build the graph", "why_tests_cant": "The claim ranges over all files, options and schedules; the benchmark drops the verdict of the verifier, and the verifier repeats the mistake of the versions that it checks.", "anchors": ["bench/bc.cpp: main", "bench/common.hpp: build_adjacency", "include/nwgraph/algorithms/betweenness_centrality.hpp: brandes_bc, exact_brandes_bc, approx_betweenness_brandes, BCVerifier", "include/nwgraph/experimental/algorithms/betweenness_centrality.hpp: bc2_v0, bc2_v1, bc2_v3, bc2_v4"]}
{"id": "C117", "title": "The sets that are read out of a disjoint_set are those that were joined", "statement": "After any history of looking for representatives and joining sets (by size or by height), two elements have the same representative exactly if the calls have joined them, directly or through others; forEachRootIndex visits one element of every set and forEachRoot passes its size; getSubsets lists the sets; getCompactDisjSets labels two elements alike exactly if they are in the same set and reports how many sets there are; join and reset move elements between sets.", "quantifier": "every number of elements, every history of calls with elements in range", "why_tests_cant": "A history has no bound; the functions that read the sets are right on some states and wrong on others.", "anchors": ["include/nwgraph/util/disjoint_set.hpp: class disjoint_set: find_with_pathcompression, combineBySize, combineByHeight, getSubsets, getCompactDisjSets, getSetNumber, forEachRoot, forEachRootIndex, join, directJoin, directFind, reset, allToSingletons, unionBySizeAtomic"]}
{"id": "C118", "title": "A converted graph file loads like the original", "statement": "Loading the file that process_edge_list -d (or -u) writes from a Matrix Market file gives the same edge list, with or without the attribute, as loading the Matrix Market file itself in a benchmark for directed (or undirected) graphs, and that list has exactly the edges of the file; the program writes exactly the files it is asked for; the list has the form on which the results of the benchmarks rest.", "quantifier": "every well-formed Matrix Market file whose numbers fit the id type, every size of ids and attributes, both options", "why_tests_cant": "The two file formats are read by different code; a test compares a few files.", "anchors": ["bench/ProcessEdgelist.cpp: main, eval", "bench/common.hpp: load_graph", "include/nwgraph/edge_list.hpp: serialize, deserialize", "include/nwgraph/io/mmio.hpp: read_mm"]}
{"id": "C119", "title": "The source checker reports the sources that differ", "statement": "The tool sources reports the number of positions at which a file of sources, counted from 1, differs from the vertices that build_random_sources selects: of the vertices drawn, in order, those that at least one edge leaves. It reports none exactly if the file lists those, and reports a wrong number of sources otherwise.", "quantifier": "every graph, file of sources, sequence of random numbers, number of trials and iterations", "why_tests_cant": "The random numbers and the graph are unbounded.", "anchors": ["bench/SourceVerifier.cpp: main", "bench/common.hpp: build_random_sources, build_degrees, build_adjacency", "include/nwgraph/io/mmio.hpp: read_mm_vector"]}
{"id": "C120", "title": "Atomic minimum, maximum, sum and counters lose no update", "statement": "When any number of threads call writeMin, writeMax or writeAdd on one location, or advance one of the counting output iterators with a mutex or an atomic counter, the final value is the minimum, maximum or sum of the old value and all arguments, or the number of elements written, and the calls take effect one after the other: each call to writeMin says true exactly if it lowered the value.", "quantifier": "every number of threads, arguments, initial value and interleaving of the atomic accesses", "why_tests_cant": "Lost updates show only under particular interleavings.", "anchors": ["include/nwgraph/algorithms/detail/disjoint_set.hpp: writeMin, writeAdd", "include/nwgraph/algorithms/experimental/connected_components.hpp: writeMin", "include/nwgraph/util/util_par.hpp: par_counting_output_iterator, atomic_counting_output_iterator", "include/nwgraph/util/util.hpp: counting_output_iterator"]}
{"id": "C121", "title": "The table of times reports minimum, maximum and average", "statement": "For every combination of file, algorithm and number of threads that was timed, the printed table has exactly one line, in the order of the combinations, with the least, greatest and average of the times recorded for it; the columns are wide enough that the lines align.", "quantifier": "every sequence of recorded times and combinations", "why_tests_cant": "The number of samples and combinations is unbounded.", "anchors": ["bench/common.hpp: Times::append, print, average, minmax, minmaxavg"]}
{"id": "C122", "title": "Arrays of structs are saved, loaded and compared as they are", "statement": "Reading what array_of_structs::serialize has written, into any array of the same type, gives the same tuples and leaves the rest of the stream to be read; == says whether two arrays are equal.", "quantifier": "every array, tuple layout and array read into", "why_tests_cant": "The tuples and lengths are unbounded.", "anchors": ["include/nwgraph/containers/aos.hpp: serialize, deserialize, operator==, push_back"]}
{"id": "C123", "title": "histogram counts the occurrences", "statement": "If all values are less than the size of the output, histogram leaves in every position of the output the number of times it occurs in the input, whatever the output held before; otherwise the output is accessed out of bounds.", "quantifier": "every input and output", "why_tests_cant": "The input is unbounded.", "anchors": ["include/nwgraph/util/util.hpp: histogram"]}
{"id": "C124", "title": "The oracle example prints least numbers of links and chains that prove them", "statement": "For every list of titles with their casts, the example that searches from one chosen name prints, for everyone joined to that name by links of common titles, the least number of links, and as many lines that form a chain to the chosen name, each naming two different members of the cast of the title it names; the furthest distance it prints is the largest of these numbers.", "quantifier": "every list of titles and casts whose ids fit the id type, every chosen name, every name asked for, every order in which the parallel build places the neighbours", "why_tests_cant": "The data, the chains and the order of the neighbours are unbounded.", "anchors": ["examples/imdb/oracle.cpp: main, path_to_bacon", "examples/imdb/dblp.cpp: main", "examples/imdb/oracle+dblp.cpp: main", "include/nwgraph/adaptors/bfs_edge_range.hpp: bfs_edge_range"]}
{"id": "C125", "title": "The hypergraph example finds exactly the pairs that share two entries", "statement": "In the graph that the s-overlap example ends with, j is a neighbour of i exactly if they are different and share at least two entries of the incidence list, and no neighbour occurs twice, whatever the order in which the threads enter the critical section.", "quantifier": "every incidence list and every order of the critical sections", "why_tests_cant": "The incidence lists are unbounded and the order of the threads is not under the control of a test.", "anchors": ["examples/imdb/dns.cpp: main"]}
{"id": "C126", "title": "delink returns the text of a link", "statement": "A text without [[ is returned as it is; of ...[[page]]... the page is returned and of ...[[page|text]]... the text.", "quantifier": "every text before, in and after the brackets", "why_tests_cant": "The texts are unbounded.", "anchors": ["examples/imdb/oracle.cpp: delink"]}
{"id": "C127", "title": "Every way to write a loop over the edges executes the same statements in the same order", "statement": "The loop over the offset and target arrays, the loop over graph[i], the nested loop over the graph, the loop over its neighbor_range and the loop over its edge_range execute a statement for the same edges in the same order, so that a product with a vector or a count of edges is the same whichever is used, even in floating point.", "quantifier": "every graph, every statement and every state it starts from", "why_tests_cant": "The graphs, the statements and the values are unbounded.", "anchors": ["apb/spmv.cpp: apb_adj", "apb/plain.cpp: apb_adj", "apb/containers.cpp", "apb/tbb.cpp: apb_adj", "include/nwgraph/adaptors/edge_range.hpp: edge_range", "include/nwgraph/adaptors/neighbor_range.hpp: neighbor_range"]}
{"id": "C128", "title": "Parallel loops over an edge range lose no update", "statement": "A parallel loop over the pieces of an edge range that updates, for each edge, the entry of its source or of its target with a plain load and store leaves in each entry what the sequential loop leaves there.", "quantifier": "every graph, every way to divide the range, every order of the loads and stores of the threads", "why_tests_cant": "The ways to divide the range and the interleavings are not under the control of a test.", "anchors": ["apb/tbb.cpp: apb_adj", "include/nwgraph/adaptors/edge_range.hpp: edge_range"]}
{"id": "C129", "title": "The search benchmarks visit exactly what can be reached", "statement": "The breadth-first and the depth-first loop of the benchmarks end, stay within the arrays and mark exactly the vertices that can be reached from the seed.", "quantifier": "every graph whose edges stay within it and every seed that is one of its vertices", "why_tests_cant": "The graphs and the lengths of the walks are unbounded, and the depth-first loop expands vertices again, so that its termination is not obvious.", "anchors": ["apb/bfs.cpp: apb_adj", "apb/dfs.cpp: apb_adj"]}
{"id": "C130", "title": "Printing a graph writes its edges to the stream that is given", "statement": "stream, stream_edges, stream_indices and stream_stats write to the stream that is given, and to no other, a text from which the edges can be read again: one line for each edge or vertex, in order.", "quantifier": "every graph, every stream and everything already written to it", "why_tests_cant": "The graphs and the numbers in them are unbounded, and a test that captures std::cout does not see that the argument is ignored.", "anchors": ["include/nwgraph/edge_list.hpp: stream_edges, stream_stats, stream", "include/nwgraph/containers/compressed.hpp: stream, stream_indices, stream_stats", "include/nwgraph/containers/aos.hpp: stream, print_helper"]}
{"id": "C131", "title": "A provenance holds the notes that were pushed", "statement": "After any calls of push_back a provenance holds the notes in order, each without white space around its parts; streaming it prints one line for each note, after the prefix; assigning it makes a copy.", "quantifier": "every sequence of notes and every assignment", "why_tests_cant": "The notes and their number are unbounded.", "anchors": ["include/nwgraph/util/provenance.hpp: provenance, trim, ltrim, rtrim"]}
{"id": "C132", "title": "dfs_edge_range goes along the edges of a depth-first search", "statement": "A loop over dfs_edge_range visits the edges of the depth-first search from the seed: each edge leaves the vertex reached last among those with a neighbour not yet reached, to the first such neighbour. So each vertex that can be reached, and no other, is entered exactly once.", "quantifier": "every graph and every seed", "why_tests_cant": "The graphs are unbounded, and so are the depth of the stack and the number of vertices left at once.", "anchors": ["include/nwgraph/adaptors/dfs_range.hpp: dfs_edge_range, dfs_edge_range_iterator"]}
{"id": "C133", "title": "A timer reports the time from its last start to its last stop", "statement": "elapsed() of a timer is the number of whole units from the last start to the last stop, whatever was called before; lap() stops and returns the same; printing a timer prints that number with its name and unit; a life_timer with a name prints its lifetime when it ends.", "quantifier": "every history of calls, every reading of the clock and every name", "why_tests_cant": "The histories and the readings of the clock are unbounded, and a test does not set the clock back nor run long enough to lose digits.", "anchors": ["include/nwgraph/util/timer.hpp: timer, life_timer, operator<<"]}
{"id": "C134", "title": "The type code of a Matrix Market file says what its banner says", "statement": "mm_read_banner accepts exactly the banners of the format and returns the letters of their words; mm_typecode_to_str writes these words, and what it writes is read again; mm_is_valid accepts exactly the types that the format has; mm_read_mtx_array_size returns the sizes behind the comments.", "quantifier": "every text and every type code", "why_tests_cant": "Texts are unbounded, and of the type codes tests try a few.", "anchors": ["include/nwgraph/io/mmio_nist.h: mm_read_banner, mm_typecode_to_str, mm_is_valid, mm_read_mtx_array_size"]}
{"id": "C135", "title": "A struct of arrays behaves like a vector of tuples", "statement": "After any sequence of push_back, push_at, clear, resize, reserve, move and copy, a struct_of_arrays holds the tuples that a vector of tuples would hold after the same operations, size() is their number and operator[] returns them; the constructors start from no tuples, default tuples or the given ones.", "quantifier": "every number and types of the columns, every sequence of calls and all their arguments", "why_tests_cant": "The sequences of calls and their arguments are unbounded.", "anchors": ["include/nwgraph/containers/soa.hpp: struct_of_arrays, push_back, push_at, clear, resize, reserve, move, copy, size, operator[]"]}
{"id": "C136", "title": "Atomic bit vectors are values that can be moved, and give their memory back", "statement": "Whatever a program does with any number of AtomicBitVector objects (construct them with or without clearing, move-construct, move-assign, also to themselves, clear, get, set, destroy), each is a value of its own: calls return what they return for independent sets of indices, no memory is used after it was freed or freed twice, and when all objects have been destroyed all memory has been freed.", "quantifier": "every word size, every number of objects, every sequence of operations on them", "why_tests_cant": "The histories of the objects are unbounded, and leaks and reuse of freed memory are not seen in results.", "anchors": ["include/nwgraph/util/AtomicBitVector.hpp: AtomicBitVector, ~AtomicBitVector, operator=, clear, get, set"]}
{"id": "C137", "title": "The log of a benchmark is a table of all measurements", "statement": "The log of a benchmark driver is a heading, if wanted, and one line for each measurement, in order; the words of a line are those of its columns (run, branch, revision, compiler, build, date, host, algorithm, version, threads, graph, values) and stand below those of the heading; it is appended to the file.", "quantifier": "every machine, every collection of measurements, every file and its previous contents", "why_tests_cant": "Names of machines, branches and files, and the number of measurements, are unbounded.", "anchors": ["bench/Log.hpp: Log, log_result_header, operator(), print, log"]}
{"id": "C138", "title": "The Dijkstra example computes least weights, also with negative weights", "statement": "apb/dijkstra.cpp ends and every trial of its six variants leaves, for each vertex, the least weight of a walk from the seed, or the largest value where there is none, whatever the queue hands out, if the seed is a vertex and no negative cycle can be reached from it; weights may be negative; a trial does not depend on the ones before it. If a negative cycle can be reached, the example never ends. It prints a line for each variant. (False: there is no line for the fourth variant. The seed is not checked.)", "quantifier": "every graph with weights of any sign, every seed, every number of trials, every function for the weights, every order in which the queue hands out its entries", "why_tests_cant": "Least weights over all walks, termination with negative weights and the order of the queue are about unboundedly many cases.", "anchors": ["apb/dijkstra.cpp: apb_adj, main"]}
{"id": "C139", "title": "The benchmark of execution policies computes the same product in all its variants", "statement": "apb/exec.cpp: every trial of the four variants leaves the product of the matrix of the graph and the vector, in whatever order a parallel policy treats the rows and however a parallel reduction forms the sum of a row. (False: the third variant goes over the graph with begin() and end() and so, for the graph that the program builds, reads beyond its last row; and it counts the rows in a variable that all treatments share, so that with a parallel policy for the outer loop, which the template accepts, rows are put at wrong positions.)", "quantifier": "every edge list, every vector, every number of trials, every order of the rows and every way to form a sum", "why_tests_cant": "All orders and all ways to form a sum, for graphs of any size.", "anchors": ["apb/exec.cpp: apb_adj, main", "include/nwgraph/containers/compressed.hpp: begin, end"]}
{"id": "C140", "title": "The example on the tables of IMDb prints least numbers of links through movies", "statement": "examples/imdb/imdb.cpp: for everyone joined to the chosen person by links of two who acted in the same movie, the example prints the least number of links, and as many lines that form a chain to the chosen person, each naming two different actors of the movie it names. (False: a credit for a title that is not a movie, a series for instance, is taken for a credit for the first row of the table of titles, its heading, so that any two actors of such titles are linked.)", "quantifier": "every three tables whose numbers of rows fit the id type, every chosen person, every person asked for, every order in which the parallel build places the neighbours", "why_tests_cant": "The tables, the chains and the order of the neighbours are unbounded.", "anchors": ["examples/imdb/imdb.cpp: main", "include/nwgraph/adaptors/bfs_edge_range.hpp: bfs_edge_range"]}
{"id": "C141", "title": "A permutation iterator goes through the elements in the order of the permutation", "statement": "util/permutation_iterator.hpp: going from an iterator to one with the same base and a larger index, the loop gives the elements at the positions that the function gives, in this order, and ends; with a permutation of the numbers below n, every one of the n elements from the base on comes once. Copying to an iterator puts the values at these positions, if they are different, and changes nothing else. A position that is not in the vector is an access out of bounds, and with an end that is behind or has another base the loop does not end.", "quantifier": "every vector, every base, every function of the index, every number of steps", "why_tests_cant": "All vectors and all functions.", "anchors": ["include/nwgraph/util/permutation_iterator.hpp: permutation_iterator"]}
{"id": "C142", "title": "unionBySizeAtomic can be called by several threads", "statement": "util/disjoint_set.hpp: if several threads call unionBySizeAtomic(u, v) at the same time, each with a representative u, then under every schedule all calls return, and two elements are in the same set afterwards exactly if they were before or the calls connect them. (False: calls that work one after the other can make an element its own parent, so that find_with_pathcompression never returns; they can also lose a join and join elements that no call has named. It holds for calls that do not meet: no two second arguments in one set, no second argument in the set of another call's first argument, and a first argument shared only by calls with second arguments that are not larger.)", "quantifier": "every number of elements, every history before, every number of threads and their arguments, every interleaving of their accesses", "why_tests_cant": "Schedules have no bound, and most of them give the right sets.", "anchors": ["include/nwgraph/util/disjoint_set.hpp: disjoint_set::unionBySizeAtomic, find_with_pathcompression, writeAdd"]}
{"id": "C143", "title": "The search-based connected components may run in parallel", "statement": "compute_connected_components of the experimental directory, which asks for a parallel loop: under every schedule it ends without a fault, and vertices get the same label only if they are connected. (False: on every graph there is a schedule under which all vertices get the same label, because the counter is read again after it was raised. What holds: it ends under every schedule, and every vertex has a label less than the number of vertices; in order, vertices with the same label are connected.)", "quantifier": "every graph with in-range neighbours, every unsigned label type that holds the number of vertices, every interleaving of the tasks", "why_tests_cant": "Schedules have no bound, and a test run usually starts the tasks one after the other.", "anchors": ["include/nwgraph/experimental/algorithms/connected_components.hpp: compute_connected_components"]}
{"id": "C144", "title": "Weights that do not fit the distance type do no harm to distances that do", "statement": "dijkstra(graph, source) and delta_stepping(graph, source, delta) with an unsigned distance type end without a fault whatever the weights are, and every entry they return is 0 for the source, the value for unreachable vertices, or the weight of a walk; distances that fit the type are right even if other walks are too heavy for it. (False: sums wrap around, and the least weight 50 is reported as 44 when there is a detour of weight 300. What holds: both end, and entries are weights of walks modulo the number of values of the type.)", "quantifier": "every graph with in-range neighbours, every weight, every source, every positive delta, every order of the queue", "why_tests_cant": "Graphs and weights are unbounded; tests use weights far below the limits of the type.", "anchors": ["include/nwgraph/algorithms/dijkstra.hpp: dijkstra", "include/nwgraph/algorithms/delta_stepping.hpp: delta_stepping"]}
{"id": "C145", "title": "Shortest paths with weights of any sign", "statement": "dijkstra(graph, source) and delta_stepping(graph, source, delta) with a signed distance type and weights of any sign: if no cycle of negative weight can be reached from the source, both end and return the least weights of walks. dijkstra never ends if such a cycle can be reached, and a source that is no vertex fails its assertion. (True of dijkstra. False of delta_stepping: if the first edge of the source weighs at most -delta, it accesses a bin that does not exist or asks for too many bins; with smaller negative steps a vertex can stay in a bin that is never visited again, and what lies behind it is reported as unreachable.)", "quantifier": "every graph with in-range neighbours, every weight whose sums fit, every source, every positive delta, every order of the queue", "why_tests_cant": "Graphs are unbounded; the tests of the library have weights that are not negative.", "anchors": ["include/nwgraph/algorithms/dijkstra.hpp: dijkstra", "include/nwgraph/algorithms/delta_stepping.hpp: delta_stepping"]}
{"id": "C146", "title": "A saved file that was cut short is not loaded as a complete one", "statement": "If the file written by serialize of an edge list or of a compressed structure ends too early, deserialize reports it and does not return some other edge list. (False of the code: no read is checked. Cut near its end, the file is loaded without an error and the ids or attributes that are missing become 0; cut earlier, an exception that nobody catches ends the program, or a variable is used that was never set. What holds: every cut makes some read come short, so that a check of the stream would notice it.)", "quantifier": "every edge list and every compressed structure that fits in memory, every place where the file can end", "why_tests_cant": "A crash while the file is written can cut it anywhere; a test cuts it in a few places.", "anchors": ["include/nwgraph/edge_list.hpp: deserialize", "include/nwgraph/containers/soa.hpp: deserialize", "include/nwgraph/containers/compressed.hpp: deserialize", "include/nwgraph/graph_base.hpp: deserialize"]}
