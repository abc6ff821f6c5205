#!/usr/bin/env python3
"""Source of /verif/properties.jsonl: run from /verif to regenerate it."""
import json
P = []
def p(title, statement, quantifier, why, anchors):
    P.append(dict(id="C%02d" % (len(P) + 1), title=title, statement=statement,
                  quantifier=quantifier, why_tests_cant=why, anchors=anchors))
I = "include/nwgraph/"

p("Edge list records exactly what was pushed",
  "After an edge list is opened, any sequence of push_back calls and a close leave an edge list whose i-th element is the i-th pushed (source, target, attributes) tuple, with nothing lost, reordered or split between columns; pushing component-wise to a closed list aborts instead of changing it.",
  "every initial size, every finite sequence of pushes, every attribute value",
  "the set of push histories is infinite and column mix-ups only show for particular attribute combinations",
  [I+"edge_list.hpp: index_edge_list::push_back, open_for_push_back, close_for_push_back", I+"containers/soa.hpp: struct_of_arrays::push_back"])
p("num_vertices bounds every vertex id in an edge list",
  "After any push history num_vertices is the maximum of the size given to the constructor and one more than the largest vertex id ever pushed, so every stored endpoint is a valid vertex id.",
  "every initial size, every push history over the whole vertex id type (including the largest id)",
  "failure needs the extreme id of the vertex id type, which test graphs never contain",
  [I+"edge_list.hpp: index_edge_list::push_back, num_vertices"])
p("Binary save/load of an edge list is the identity",
  "Serializing any edge list and deserializing the bytes gives back an edge list with the same vertex count and the same edges and attributes in the same order, consuming exactly the bytes that were written.",
  "every edge list, every attribute column, every suffix of bytes after the record",
  "a test fixes a handful of files; framing errors depend on sizes and byte values",
  [I+"edge_list.hpp: serialize, deserialize", I+"graph_base.hpp: serialize, deserialize", I+"containers/soa.hpp: serialize, deserialize"])
p("Edge list equality means equal contents",
  "a == b for two edge lists is true exactly when they have the same vertex count and the same sequence of edges, and comparing never reads outside either list.",
  "every pair of edge lists, of equal or different length",
  "tests compare a few pairs; the failing pairs are those where one list is a proper prefix of the other",
  [I+"edge_list.hpp: operator==", I+"containers/soa.hpp: operator=="])
p("Binary save/load of a compressed adjacency is the identity",
  "Serializing a compressed adjacency structure and deserializing the bytes into a fresh one gives the same rows, for the default and for every other index width.",
  "every compressed structure, both index widths, every memory content next to the object header",
  "whether the clobbered neighbouring bytes matter depends on memory layout that a test cannot control",
  [I+"containers/compressed.hpp: serialize, deserialize", I+"adjacency.hpp: index_adjacency::serialize"])
p("Adjacency built from a directed edge list contains exactly its edges",
  "For every vertex u, the neighbourhood of u in adjacency<0> (resp. adjacency<1>) built from a directed edge list is, as a multiset with attributes, exactly the (target, attributes) of edges leaving u (resp. the (source, attributes) of edges entering u).",
  "every directed edge list, both orientations, every vertex, every sorting algorithm satisfying the std::sort contract",
  "unstable parallel sorting makes the internal order schedule-dependent; only a proof covers all orders",
  [I+"adjacency.hpp: index_adjacency", I+"build.hpp: fill, fill_directed, degrees", I+"containers/zip.hpp: make_zipped"])
p("Adjacency built from an undirected edge list is symmetric",
  "For every vertex u the neighbourhood of u in an adjacency built from an undirected edge list is, as a multiset with attributes, one entry per edge incident with u (two for a self loop); hence v occurs in u's list as often as u occurs in v's.",
  "every undirected edge list, both orientations, every vertex, every conforming sort",
  "same as C06; symmetry must hold for multigraphs with loops of any size",
  [I+"build.hpp: fill, fill_undirected"])
p("Iterating over an adjacency visits each vertex once and stays in bounds",
  "Iterating from begin() to end() of a compressed adjacency visits exactly num_vertices() neighbourhoods, and dereferencing each one reads only inside the index array.",
  "every adjacency produced by every constructor",
  "the stray read past the index array usually lands in allocated memory, so tests do not notice it",
  [I+"adjacency.hpp: index_adjacency constructors", I+"containers/compressed.hpp: begin, end, operator*, size"])
p("Degree arrays are the exact degrees",
  "The degree array computed from an edge list (by concurrent atomic increments) and the one computed from a compressed adjacency hold, for each vertex, exactly the number of incident edge ends / stored neighbours, for every interleaving of the increments.",
  "every edge list, every vertex, every interleaving of the per-edge increments",
  "lost updates depend on the schedule",
  [I+"build.hpp: degrees", I+"containers/compressed.hpp: degrees"])
p("source() inverts edge positions",
  "For every stored edge position e of a compressed structure, source(e) is the unique vertex whose neighbourhood contains position e, even when many vertices have no neighbours.",
  "every well-formed compressed structure and every edge position",
  "runs of empty neighbourhoods of arbitrary length must be skipped correctly",
  [I+"containers/compressed.hpp: source"])
p("triangularize keeps exactly one triangle of the matrix",
  "triangularize<predecessor> (resp. <successor>) keeps in each vertex u's list exactly the neighbours smaller (resp. larger) than u, with attributes and order unchanged, and stays inside the arrays.",
  "every compressed structure, both directions, every vertex",
  "must hold for every structure; the out-of-bounds row only exists for structures built from edge lists",
  [I+"containers/compressed.hpp: triangularize, triangularize_"])
p("Sorting neighbour lists keeps each edge with its attributes",
  "Sorting the adjacency (sort_to_be_indexed, or building with sort_adjacency = true) leaves every neighbourhood sorted by target and otherwise the same multiset of (target, attributes) pairs.",
  "every compressed structure, with and without attributes",
  "attributes are only detached on unsorted neighbourhoods with distinct attributes",
  [I+"containers/compressed.hpp: sort_to_be_indexed", I+"build.hpp: fill"])
p("Reordering vertices by degree preserves the graph",
  "sort_by_degree renumbers the vertices by the returned bijection: vertices appear in degree order and v is a neighbour of u in the old graph exactly as often as the new id of v is a neighbour of the new id of u.",
  "every compressed structure, both directions, every conforming sort",
  "the error appears only when the sorting permutation is not an involution",
  [I+"containers/compressed.hpp: permute_by_degree, relabel_to_be_indexed, sort_by_degree", I+"containers/soa.hpp: permute"])
p("Streaming edges into a compressed structure",
  "Opening a compressed structure of N vertices, pushing edges and closing it gives, for every vertex, exactly the pushed entries of that vertex in push order.",
  "every N and every push history, in any source order, including sources >= N and empty histories",
  "the failing histories (unsorted sources, source = N, no edges) are easy to miss",
  [I+"containers/compressed.hpp: open_for_push_back, push_back, close_for_push_back", I+"build.hpp: push_back_fill"])
p("Filling vector-of-vector graphs from an edge list",
  "push_back_fill appends to vertex u's list, in edge order, exactly the other endpoint and properties of each edge that starts at u (idx 0), ends at u (idx 1), or in the undirected case touches u, and never touches other vertices.",
  "every edge list with in-range endpoints, both idx values, directed and undirected",
  "covers all histories of appends across all vertices",
  [I+"build.hpp: push_back_fill, fill_adj_list", I+"vovos.hpp: push_back"])
p("uniq and remove_self_loops delete exactly the redundant edges",
  "On an edge list sorted by (source, target), uniq leaves exactly one edge for each distinct (source, target) pair, the first one, in order; remove_self_loops removes exactly the edges with equal endpoints and keeps the rest in order.",
  "every edge list (sorted, for uniq)",
  "runs of duplicates of any length at any position",
  [I+"build.hpp: uniq, remove_self_loops"])
p("swap_to_triangular orients every edge and changes nothing else",
  "After swap_to_triangular every edge has its endpoints in the requested order, and each edge joins the same two endpoints and carries the same attributes at the same position as before.",
  "every edge list, both idx values, both successions",
  "all combinations of compile-time choices and edge values",
  [I+"build.hpp: swap_to_triangular"])
p("Relabelling an edge list by degree is an isomorphism",
  "relabel_by_degree renames vertices by a bijection on the vertex ids such that degrees are monotone in the new ids, applies that bijection to both endpoints of every edge, keeps attributes and order, and never reads outside its tables.",
  "every edge list, every vertex, both directions, every conforming sort",
  "depends on ties and on the permutation not being an involution",
  [I+"build.hpp: perm_by_degree, relabel, relabel_by_degree"])
p("Label-based graph construction maps each label to its own vertex",
  "make_plain_graph / make_index_graph / make_property_graph put an edge between vertex positions i and j exactly for input edges between the labels at positions i and j; an edge mentioning a label that is not a vertex is not silently attached to some other vertex.",
  "every list of distinct vertex labels, every list of input edges, including edges with unknown labels",
  "unknown labels are absent from test data",
  [I+"build.hpp: make_index_map, make_plain_edges, make_property_edges, make_index_edges, make_plain_graph, make_index_graph, make_property_graph"])
p("Bipartite graph construction is sized for the indexed side",
  "make_bipartite_graph / make_plain_bipartite_graph return a graph with one neighbourhood per vertex of the side selected by idx, containing exactly the edges at that vertex; the pair builders return mutually transposed graphs.",
  "every pair of vertex lists (any relative sizes), every edge list, both idx values",
  "idx = 1 with more right than left vertices is the only failing case",
  [I+"build.hpp: data_to_graph_edge_list, make_plain_bipartite_graph, make_bipartite_graph, make_bipartite_graphs"])
p("join of a bipartite pair yields all overlaps",
  "join(G, H) lists, for each vertex i, exactly the pairs (j, k) such that k is a hyperedge of i and j != i is a member of k, with multiplicity.",
  "every pair of graphs with in-range entries",
  "combinatorial explosion of incidence structures",
  [I+"build.hpp: join"])
p("Breadth-first search finds exactly the reachable vertices by shortest paths",
  "bfs(graph, root) returns a parent array in which a vertex other than the root has a parent exactly when it is reachable from the root, every parent link is a graph edge, and following parents reaches the root in exactly the BFS distance many steps.",
  "every graph with in-range neighbours, every root",
  "shortest-path optimality over all graphs",
  [I+"algorithms/bfs.hpp: bfs(Graph, root)"])
p("Parallel direction-optimizing BFS is schedule independent up to the choice of parent",
  "For every interleaving and every choice of switching parameters (alpha, beta > 0) the direction-optimizing bfs terminates and returns a valid BFS tree: a vertex has a parent exactly when it is reachable, and each parent is one BFS level closer to the root.",
  "every graph and its transpose, every root, every positive alpha/beta, every interleaving of claims",
  "the schedule space is unbounded",
  [I+"algorithms/bfs.hpp: bfs(out_graph, in_graph, root, num_bins, alpha, beta)", I+"util/AtomicBitVector.hpp", I+"util/atomic.hpp: cas"])
p("dijkstra returns shortest path distances",
  "dijkstra(graph, source) terminates and returns, for every vertex, the least total weight of a path from the source, or the 'infinity' value when there is none, whatever order the priority queue pops equal or unequal entries in.",
  "every graph with non-negative weights, every source, every pop order",
  "optimality over all paths; the queue compares vertex ids before distances",
  [I+"algorithms/dijkstra.hpp: dijkstra"])
p("Sequential delta stepping returns shortest path distances",
  "delta_stepping(graph, source, delta) terminates and returns for every vertex the least total weight of a path from the source (infinity when unreachable), for every positive delta.",
  "every graph with non-negative integer weights, every source, every positive delta",
  "bucket boundary conditions interact with delta and path lengths",
  [I+"algorithms/delta_stepping.hpp: delta_stepping"])
p("delta_stepping_m1 relaxes edges",
  "delta_stepping_m1 returns the shortest path distances for every graph, source and positive delta.",
  "every graph, source and positive delta",
  "the property is violated for every graph in which some other vertex is reachable",
  [I+"algorithms/delta_stepping.hpp: delta_stepping_m1"])
p("Concurrent component linking never merges or splits components",
  "Starting from singletons, for every interleaving of link and compress steps executed by any number of threads, two vertices carry connected labels only if the linked edges connect them; once all links have finished they are connected exactly when the linked edges connect them, and a final compress makes labels equal exactly within components.",
  "every set of edges, every number of threads, every interleaving of atomic steps",
  "lock-free races: unbounded schedules",
  [I+"algorithms/connected_components.hpp: link, compress"])
p("afforest returns the connected components",
  "afforest(graph, t_graph) terminates without reading outside the graph and returns an array in which two vertices have the same label exactly when they are connected by edges of graph (used in either direction).",
  "every symmetric graph or graph/transpose pair, every number of neighbour rounds, every sampled component",
  "the skipped component is chosen at random; correctness must not depend on it",
  [I+"algorithms/connected_components.hpp: afforest, sample_frequent_element"])
p("maximal_independent_set returns a maximal independent set",
  "On a symmetric graph the returned vertex set contains no two adjacent distinct vertices and every vertex outside it is adjacent to a member.",
  "every graph with in-range neighbours",
  "universal over graphs",
  [I+"algorithms/maximal_independent_set.hpp: maximal_independent_set"])
p("Jones-Plassmann colouring is proper",
  "The colouring routine assigns every vertex a colour such that adjacent vertices get different colours, each newly chosen colour being the least positive integer unused by the neighbours.",
  "every symmetric graph without self loops",
  "universal over graphs",
  [I+"algorithms/jones_plassmann_coloring.hpp: jones_plassmann_coloring, firstMissingPositive"])
p("Sequential triangle count is the number of triangles",
  "On the upper or lower triangular, sorted adjacency of a simple undirected graph, triangle_count returns the number of triangles (unordered triples of mutually adjacent vertices).",
  "every simple graph on any number of vertices, both triangular orientations",
  "counting identity over all graphs",
  [I+"algorithms/triangle_count.hpp: triangle_count", I+"util/intersection_size.hpp"])
p("Parallel triangle count does not depend on the partition",
  "For every number of threads >= 1 and every completion order the asynchronous triangle_count returns the same value as the sequential one on an upper triangular sorted adjacency.",
  "every graph, thread count and completion order",
  "schedule- and partition-dependence",
  [I+"algorithms/triangle_count.hpp: triangle_count_async, triangle_count(A, threads)"])
p("intersection_size is the size of the set intersection",
  "For two strictly increasing sequences intersection_size returns the number of common elements and reads only inside the sequences; for non-decreasing sequences it returns the multiset intersection size.",
  "all pairs of sorted sequences of any length",
  "merge loops over arbitrary lengths",
  [I+"util/intersection_size.hpp: intersection_size"])
p("jaccard similarity scores are exact",
  "After jaccard_similarity every stored edge (u, v) with u < v carries the score |N(u) ∩ N(v)| / |N(u) ∪ N(v)| of the sorted neighbour sets, whose denominator is never zero; the other edges and the structure of the graph are unchanged, and the returned number is the number of edges scored.",
  "every graph with sorted duplicate-free neighbourhoods",
  "universal over graphs",
  [I+"algorithms/jaccard.hpp: jaccard_similarity"])
p("Sparse matrix product is the matrix product",
  "spMatspMat(A, B) returns a list of entries (i, j, x), at most one per (i, j), with x = sum over k of A[i][k] * B[k][j], containing an entry exactly for those (i, j) for which some k has both A[i][k] and B[k][j] stored.",
  "every pair of sparse matrices with compatible dimensions over any commutative semiring, with duplicate stored entries allowed",
  "universal over matrices",
  [I+"algorithms/spMatspMat.hpp: spMatspMat"])
p("Sparse product with a transpose is the product of row dot products",
  "spMatspMatT(A, B) returns at (i, j) the sum over the common columns k of A[i][k] * B[j][k], for matrices whose rows are sorted without duplicates, with an entry exactly when the rows share a column.",
  "every pair of sparse matrices with strictly increasing rows",
  "merge loop over arbitrary rows",
  [I+"algorithms/spMatspMat.hpp: spMatspMatT, set_ewise_intersection"])
p("Union-find tracks the generated equivalence",
  "After any sequence of disjoint_find / disjoint_union / disjoint_union_find calls starting from singletons, two elements have the same representative exactly when they are connected by the union calls made; find never changes the partition and terminates; disjoint_union_find reports whether the union merged two classes.",
  "every number of elements, every call sequence",
  "unbounded histories; rank and path compression interplay",
  [I+"util/disjoint_set.hpp: disjoint_find, disjoint_union, disjoint_union_find"])
p("kruskal returns a minimum spanning forest",
  "For every edge list and weight order, kruskal returns a cycle-free subset of the edges that connects the same vertices as the input and whose total weight is least among such subsets, without reading outside its arrays.",
  "every weighted edge list, every conforming sort",
  "optimality over all spanning forests; out-of-bounds access when a vertex id is at least the number of edges",
  [I+"algorithms/kruskal.hpp: kruskal"])
p("disjoint_set::find returns the set of its argument",
  "find(x) of the disjoint_set class returns the representative of the set containing x.",
  "every sequence of joins and every element",
  "fails for every structure with two or more sets",
  [I+"util/disjoint_set.hpp: class disjoint_set: find"])
p("Sequential Brandes betweenness is exact",
  "The sequential betweenness routine returns, for each vertex v, the sum over all sources s != v and targets t != v of the fraction of shortest s-t paths that pass through v; with normalization, that sum divided by the largest one.",
  "every unweighted graph (parallel edges and loops included) whose numbers of shortest paths fit the counting type",
  "sums over exponentially many shortest paths",
  [I+"algorithms/betweenness_centrality.hpp: brandes_bc (sequential), exact_brandes_bc"])
p("Parallel Brandes agrees with the sequential one",
  "For the same sources the parallel betweenness routine yields the same scores as the sequential routine.",
  "every graph, every source list, every interleaving",
  "schedule dependence; the score of a source itself differs",
  [I+"algorithms/betweenness_centrality.hpp: brandes_bc (parallel)"])
p("The BFS verifier accepts exactly the valid BFS parent arrays",
  "BFSVerifier returns true exactly when the parent array given is a valid BFS tree of the graph from the source.",
  "every graph, source and candidate parent array",
  "universal over candidate answers",
  [I+"algorithms/bfs.hpp: BFSVerifier"])
p("The component verifier accepts exactly the component labellings",
  "CCVerifier returns true exactly when the label array gives equal labels precisely to connected vertices.",
  "every graph and candidate label array",
  "universal over candidate answers",
  [I+"algorithms/connected_components.hpp: CCVerifier"])
p("Power-of-two rounding",
  "For every 64-bit n >= 1 with a representable result, pow2(ceil_log2(n)) is the least power of two that is at least n.",
  "all 64-bit values",
  "2^64 inputs",
  [I+"util/util.hpp: log2, ceil_log2, pow2"])
p("Block distribution partitions the index range",
  "The ranges block(N, n, 0), ..., block(N, n, n-1) are consecutive, disjoint, cover [0, N) exactly, and their sizes differ by at most one; the assertions in the function never fire for id < n.",
  "every N, every n >= 1, every id < n",
  "two unbounded parameters",
  [I+"util/util.hpp: block"])
p("parallel_reduce equals the sequential reduction",
  "For every associative and commutative combination, every initial value and every splitting of the range, parallel_reduce returns the fold of the range elements from the initial value.",
  "every range, every splitting tree, every initial value",
  "splitting is decided by the scheduler at run time",
  [I+"util/parallel_for.hpp: parallel_reduce, parallel_for_sequential"])
p("Atomic bit vector behaves as a set of indices",
  "After any interleaving of set operations the bit vector contains exactly the indices set; get reports membership; set reports the previous membership so that exactly one of several concurrent setters of one index sees it unset; iterating the non-zero entries (also over any splitting of the range) yields each member exactly once in increasing order.",
  "every size, every interleaving of operations, every splitting",
  "word-boundary cases and schedules",
  [I+"util/AtomicBitVector.hpp"])
p("Compare-and-swap based atomic addition loses no update",
  "For every number of threads adding to one location with the CAS-loop fetch_add, every interleaving (including spurious failures) ends with the initial value plus the sum of all completed additions, and the values returned are the intermediate values in completion order.",
  "every number of threads, amounts and interleaving",
  "unbounded schedules",
  [I+"util/atomic.hpp: fetch_add, cas"])
p("proxysort returns the sorting permutation",
  "proxysort(x) returns a permutation p of the indices such that x[p[0]], x[p[1]], ... is sorted by the comparison.",
  "every vector, comparison and conforming sort",
  "universal over inputs",
  [I+"util/proxysort.hpp: proxysort"])
p("Cyclic ranges partition the underlying range",
  "Every tree of splits of a cyclic range yields sub-ranges that together visit each element of the underlying range exactly once; each sub-range's iteration terminates at its end iterator and size() is the number of elements it visits, including sub-ranges that start past the end.",
  "every range length, every split tree, every cutoff",
  "run-time splitting decisions; the wrap-around arithmetic for short ranges",
  [I+"adaptors/cyclic_range_adaptor.hpp", I+"adaptors/cyclic_neighbor_range.hpp"])
p("Splitting a block range neither loses nor repeats elements",
  "Every tree of splits of a splittable_range_adaptor, plain_range, neighbor_range, edge_range or bit-vector range yields consecutive sub-ranges that together visit each element exactly once and whose splitting terminates when only divisible ranges are split.",
  "every range length, every split tree",
  "run-time splitting decisions",
  [I+"adaptors/splittable_range_adaptor.hpp", I+"adaptors/plain_range.hpp", I+"adaptors/neighbor_range.hpp", I+"adaptors/edge_range.hpp"])
p("Splitting a vertex_range partitions the vertices",
  "Splitting a vertex_range divides its vertices between the two halves, and repeated splitting of divisible ranges terminates.",
  "every number of vertices and split tree",
  "fails for every non-empty range",
  [I+"adaptors/vertex_range.hpp: vertex_range"])
p("edge_range enumerates every stored edge once",
  "Iterating edge_range(g) yields, for each vertex u in order, each entry of u's neighbourhood in order as (u, v, attributes), skipping empty neighbourhoods, and then stops.",
  "every graph with in-bounds rows, any pattern of empty rows",
  "patterns of empty neighbourhoods of any length at any place",
  [I+"adaptors/edge_range.hpp"])
p("topdown_bfs_range visits the reachable vertices once in BFS order",
  "Iterating topdown_bfs_range(g, s) yields every vertex reachable from s exactly once, in order of non-decreasing distance from s, and terminates.",
  "every graph with in-range neighbours, every seed",
  "universal over graphs",
  [I+"adaptors/bfs_range.hpp: topdown_bfs_range"])
p("bfs_edge_range yields the edges of a BFS tree",
  "Iterating bfs_edge_range(g, s) yields exactly one edge into each reachable vertex other than s, from a vertex that is one level closer to s, in order of non-decreasing distance, and stops; this includes seeds with no neighbours.",
  "every graph with in-range neighbours, every seed",
  "fails only for seeds whose first edge is missing or a self loop",
  [I+"adaptors/bfs_edge_range.hpp: bfs_edge_range"])
p("dfs_range visits each vertex once and terminates",
  "Iterating dfs_range(g, s) visits every vertex exactly once and stops.",
  "every graph and seed",
  "the non-termination occurs on vertices without out-edges",
  [I+"adaptors/new_dfs_range.hpp: dfs_range"])
p("Work list iteration is first-in first-out and complete",
  "Iterating a worklist_range delivers every item ever pushed, including those pushed while iterating, exactly once and in push order, and stops when nothing is left.",
  "every initial content, every behaviour of the loop body",
  "unbounded dynamic pushes",
  [I+"adaptors/worklist.hpp: worklist_range"])
p("Concurrent work list iteration delivers every item",
  "Iterating a tbbworklist_range delivers every item pushed.",
  "every content",
  "fails for every non-empty content",
  [I+"adaptors/worklist.hpp: tbbworklist_range, tbbworklist_range2"])
p("reverse_path walks the predecessor chain",
  "Iterating reverse_path(path, start, stop) yields start and then each predecessor in turn up to, but not including, stop, whenever stop is on the predecessor chain of start.",
  "every predecessor array, start and stop (including start = stop)",
  "chains of any length",
  [I+"adaptors/reverse.hpp: reverse_path"])
p("random_range performs a walk in the graph",
  "For every outcome of the random generator, iterating random_range(g, n, first) yields n vertices starting with first, each consecutive pair being an edge of g, provided every visited vertex has a neighbour.",
  "every graph, length and random outcome",
  "random outcomes cannot be enumerated",
  [I+"adaptors/random_range.hpp: random_range"])
p("dag_range processes a DAG in topological order",
  "Iterating dag_range over an acyclic predecessor/successor structure visits every edge exactly once, never leaves a vertex before all edges into it have been visited, flags a successor as ready exactly on its last incoming edge, and terminates without reading outside its lists.",
  "every acyclic structure with consistent predecessor and successor lists",
  "universal over DAGs",
  [I+"adaptors/dag_range.hpp: dag_range"])
p("Reading a Matrix Market file yields the matrix it describes",
  "Reading a coordinate Matrix Market text yields exactly the entries listed, shifted to zero-based ids, plus, for a symmetric file read as a directed graph, the mirror image of every off-diagonal entry; vertex count at least the declared size.",
  "every well-formed file with any number of comment lines and entries",
  "unbounded file contents",
  [I+"io/mmio.hpp: read_mm, mm_fill"])
p("Writing and reading Matrix Market round-trips",
  "write_mm followed by read_mm gives back the same edge list (same vertex count, same edges in order), for directed lists in general format and undirected lists in the default and the symmetric format.",
  "every edge list",
  "fails for every non-empty undirected list in the default format",
  [I+"io/mmio.hpp: write_mm, aos_stream, read_mm, mm_fill"])

p("Parallel delta stepping returns shortest path distances",
  "The parallel delta_stepping(graph, source, delta) ends under every schedule and returns for every vertex the least total weight of a path from the source (infinity when unreachable), for every positive delta.",
  "every graph with non-negative integer weights, every source, every positive delta, every interleaving of the relaxations",
  "an uninitialised flag is read whenever an edge does not improve a distance; races between relaxations cannot be enumerated",
  [I+"algorithms/delta_stepping.hpp: delta_stepping (parallel)"])

p("disjoint_set: path compression and root combination keep the partition",
  "find_with_pathcompression(x) returns the representative of the set of x, leaves every set as it was and links x directly to its representative; combineBySize and combineByHeight of two representatives put exactly these two sets together, hanging the smaller under the larger, and keep the stored sizes (ranks) right.",
  "every valid structure, every element, every pair of representatives",
  "holds for every forest, whatever its depth",
  [I+"util/disjoint_set.hpp: class disjoint_set: find_with_pathcompression, combineBySize, combineByHeight"])

p("is_mm and get_mm_symmetry agree with read_mm",
  "For every file that read_mm accepts, is_mm returns true and get_mm_symmetry returns undirected exactly when the file is symmetric.",
  "every well-formed file",
  "unbounded file contents",
  [I+"io/mmio.hpp: is_mm, get_mm_symmetry"])
p("Writing an adjacency as Matrix Market and reading it gives its edges",
  "write_mm of a compressed adjacency followed by read_mm as a directed graph gives an edge list with the same vertex count and the edges of the adjacency in row order.",
  "every adjacency, of either index",
  "fails for every adjacency constructed from an edge list alone",
  [I+"io/mmio.hpp: write_mm (adjacency), adjacency_stream"])
p("read_mm_vector returns the values of the file",
  "read_mm_vector of an array file with one column returns the listed values in order.",
  "every array file of integers",
  "unbounded file contents",
  [I+"io/mmio.hpp: read_mm_vector"])

p("dag_based_mis computes a maximal independent set",
  "After dag_based_mis(A, mis), mis marks a set of vertices no two of which are joined by an edge and such that every other vertex is joined to a marked one, whatever mis held before.",
  "every graph, whether an edge is stored once or in both directions, and every initial vector",
  "depends on the topological processing of an orientation of an arbitrary graph; the test passes the one initial vector for which the result is maximal",
  [I+"algorithms/dag_based_mis.hpp: dag_based_mis"])

p("tbbworklist_range2 delivers lower buckets first",
  "If every item is pushed into the bucket of its level and the loop body only pushes items of the level being processed or a later one, the items are delivered in order of their levels.",
  "every initial contents, every loop body and every level function",
  "the order depends on the whole history of pushes made by an arbitrary loop body",
  [I+"adaptors/worklist.hpp: tbbworklist_range2"])
p("page_rank converges to the PageRank vector",
  "In exact arithmetic, if row i lists the vertices linking to i and degrees are at least the numbers of links and positive where used, there is exactly one PageRank vector, and page_rank ends under every schedule after k <= max_iters rounds with a relative error of at most (1-(1-d)/n)^k/(1-d); if it stops early, the relative error is at most threshold*n^2/(1-d)^2.",
  "every graph with a vertex, damping factor in [0,1), threshold, iteration limit and interleaving of the threads",
  "threads read contributions other threads are overwriting in the same round, so the iterates depend on the schedule; convergence is a statement about all of them",
  [I+"algorithms/page_rank.hpp: page_rank"])

p("back_edge_range gives every edge a counterpart",
  "A loop over the edges of v in a back_edge_range delivers the stored edges of v and one extra edge to each u with an edge to v but none from v; for each edge from v to u, get_back_edge(v, u) refers, at any time and in both modes, to the first stored edge from u to v, or else to the extra edge that the loop over the edges of u delivers.",
  "every graph with neighbours in range, both modes of the constructor and every history of calls",
  "the maps are filled in an order that depends on the whole graph and on the history of calls",
  [I+"adaptors/back_edge_range.hpp: back_edge_range, get_back_edge"])

p("max_flow finds a maximum flow",
  "max_flow(A, source, sink, max_iters) ends without undefined behaviour, leaves a flow within the capacities on the arcs and returns its value, and no flow from source to sink has a larger value.",
  "every network, every feasible flow at the beginning, every source and sink, every limit of the iterations",
  "maximality compares with all other flows, and flow that has been sent may have to be taken back",
  [I+"algorithms/max_flow.hpp: max_flow", I+"adaptors/filtered_bfs_range.hpp: filtered_bfs_edge_range", I+"adaptors/reverse.hpp: reverse_path"])

p("bk_maxflow finds the value of a minimum cut",
  "bk_maxflow(A, cap) ends without undefined behaviour and returns the value of a maximum flow in the network in which a vertex with a positive number hangs on the source and one with a negative number on the terminal, minus the capacity into the terminal.",
  "every graph with non-negative capacities, every vector of numbers for the vertices",
  "maximality compares with all flows, and the trees, timestamps and distances that the search reuses depend on everything that happened before",
  [I+"algorithms/boykov_kolmogorov.hpp: bk_maxflow", I+"adaptors/back_edge_range.hpp: back_edge_range"])

p("bfs_edge_range3 yields the edges of a breadth-first search tree",
  "Iterating bfs_edge_range3(graph, seed) ends. If the seed has a neighbour other than itself it yields pairs (parent, child): one for every reachable vertex other than the seed, along an edge from a vertex one level closer, in order of non-decreasing distance. Otherwise it yields the single pair (seed, seed).",
  "every graph, every seed",
  "which vertices are reachable and at what distance depends on the whole graph; the two queues interleave differently on every graph",
  [I+"adaptors/bfs_edge_range.hpp: bfs_edge_range3"])
p("dijkstra_er returns the shortest distances",
  "dijkstra_er(graph, source) returns for every vertex the length of a shortest path from the source.",
  "every weighted graph with non-negative weights, every source",
  "minimality compares with all paths, and the iterator and the caller share one queue",
  [I+"algorithms/dijkstra.hpp: dijkstra_er", I+"adaptors/bfs_edge_range.hpp: bfs_edge_range2"])
p("bottomup_bfs_range visits the reachable vertices with a parent closer to the seed",
  "Iterating bottomup_bfs_range(graph, seed) ends and yields every vertex reachable from the seed once, together with a neighbour that was yielded before, in order of distance.",
  "every graph, every seed",
  "which vertices are reachable and which neighbours come earlier depends on the whole graph",
  [I+"adaptors/bfs_range.hpp: bottomup_bfs_range"])

p("configuration_model returns a bipartite graph with the given degrees",
  "For two degree sequences with the same sum, configuration_model returns an edge list in which every vertex of the first set is the source, and every vertex of the second set the target, of as many edges as its degree says. For sequences with different sums it returns an empty edge list.",
  "all degree sequences, all outcomes of the random shuffles",
  "the shuffle is random and the sequences are arbitrary",
  [I+"generators/configuration_model.hpp: configuration_model"])
p("k_core returns the k-core",
  "k_core(A, k) returns the number of vertices of the k-core of A, the largest set of vertices each of which has at least k neighbours in the set, and the edges outside it.",
  "every undirected graph, every k",
  "the k-core is the largest of all subsets with the property, and removing one edge can cascade through the graph",
  [I+"algorithms/k_core.hpp: k_core", I+"adaptors/new_dfs_range.hpp: dfs_edge_range"])

p("Every experimental triangle count returns the number of triangles",
  "Each of the functions triangle_count_vc, v1, v15, v2, v3, v4, v5, v6, v7, v10, v12, v13, v14, edgesplit and edgesplit_upper returns the number of triangles of a simple graph given by its upper triangular, sorted adjacency; those not documented as upper-only also for the lower triangular one. This holds for every number of threads, every split of the range and every order of the atomic additions.",
  "every simple graph, thread count, stride, splitting of the work and order of the updates",
  "the number of triangles, splittings and schedules is unbounded",
  ["include/nwgraph/experimental/algorithms/triangle_count.hpp: triangle_count_vc, triangle_count_v1 to v15, triangle_count_edgesplit, triangle_count_edgesplit_upper", I+"util/parallel_for.hpp: parallel_reduce"])

p("A bipartite adjacency holds exactly the edges of the bipartite list",
  "After any sequence of pushes to a bipartite edge list, a biadjacency<idx> of the list has the vertices of part idx, knows the size of the other part, and for each vertex yields exactly the pushed edges at it, with multiplicity and attributes; iterating over it visits each vertex of the part once; the two biadjacencies of a list are each other's transpose; with sort_biadjacency the neighbours of each vertex are in increasing order.",
  "every sequence of edges, declared sizes, part, schedule of the counting and conforming sort",
  "edges, sizes, schedules and sorts are unbounded",
  [I+"adjacency.hpp: index_biadjacency, make_biadjacency, num_vertices", I+"build.hpp: fill_biadjacency, fill_directed, fill_undirected, degrees", I+"edge_list.hpp: bi_edge_list, push_back"])
p("Bipartite graphs survive Matrix Market files",
  "Reading a general coordinate file into a bipartite edge list gives exactly the listed entries with zero-based ids and parts of the declared sizes; writing a bipartite adjacency gives a file listing its edges with one-based coordinates and the sizes of its parts; writing and reading back gives the same graph.",
  "every well-formed file and every bipartite adjacency",
  "files and graphs are unbounded",
  [I+"io/mmio.hpp: mm_fill, read_mm, adjacency_stream, write_mm", I+"adjacency.hpp: biadjacency"])

p("The experimental level-by-level searches return breadth-first trees under every schedule",
  "bfs_v6, bfs_v7, bfs_v8, bfs_v9, bfs_top_down, bfs_top_down_bitmap and bfs_bottom_up end, without reading or writing outside their arrays and bins, and return a parent for exactly the vertices reachable from the root; every parent link is an edge leading one step away from the root. The versions that claim a vertex before enqueuing it never enqueue a vertex twice.",
  "every graph, root and interleaving of the atomic steps",
  "graphs and interleavings are unbounded, and the checks and writes of several versions race",
  [I+"experimental/algorithms/bfs.hpp: bfs_v6, bfs_v7, bfs_v8, bfs_v9, bfs_top_down, bfs_top_down_bitmap, bfs_bottom_up"])

p("The experimental direction-optimizing searches return breadth-first trees under every schedule",
  "bfs_v1 and bfs_v2 of the experimental directory end, without reading or writing outside their arrays and per-thread queues, and return a parent for exactly the vertices reachable from the root; every parent link is an edge leading one step away from the root. (False of bfs_v2 as written, which reads a bit vector it does not initialise, and of both with more threads than bins.)",
  "every graph with its transpose, root, alpha, beta, number of bins, number of threads, content of uninitialised memory and interleaving of the atomic steps",
  "graphs, interleavings, placements of tasks on threads and contents of uninitialised memory are unbounded",
  [I+"experimental/algorithms/bfs.hpp: bfs_v1, bfs_v2, BU_step, TD_step, queue_to_bitmap, bitmap_to_queue, flush"])

p("The experimental connected components that link and compress label weak components under every schedule",
  "ccv1, compute_connected_components_v2, Afforest and ccv5 of the experimental directory end, without reading or writing outside the label array, and return for every vertex the least vertex of its connected component, so that two vertices have equal labels exactly if a path joins them. ccv1 and compute_connected_components_v2 do so for directed graphs too (edges taken both ways), Afforest if given the transpose. (False of ccv5 on directed graphs.)",
  "every graph, with its transpose or symmetric where needed, every neighbour bound, every sampled label and every interleaving of the atomic steps of all threads",
  "graphs, interleavings of concurrent links and compressions, and sampled labels are unbounded",
  [I+"experimental/algorithms/connected_components.hpp: hook, compress, push, link, pull, compute_connected_components_v2, ccv1, Afforest, ccv5"])

p("The experimental Shiloach-Vishkin loops label weak components under every schedule, although they link without compare-and-swap",
  "sv_v6, sv_v8 and sv_v9 of the experimental directory end within as many iterations as there are vertices, without reading or writing outside the label array, and return for every vertex the least vertex of its connected component (edges taken both ways), so that two vertices have equal labels exactly if a path joins them, even when concurrent links of the same root overwrite each other.",
  "every graph, directed or not, every division of the edges among threads and every interleaving of their reads and writes",
  "graphs, divisions of the edges and interleavings are unbounded; a link that is lost to a race must be made up for in a later iteration in every case",
  [I+"experimental/algorithms/connected_components.hpp: sv_v6, sv_v8, sv_v9"])

p("The experimental label propagation gives every vertex the least label that can reach it, under every schedule",
  "lpcc and lpcc_cyclic of the experimental directory end, without reading or writing outside their arrays and per-thread lists, and return for every vertex the least vertex from which it can be reached; on a symmetric graph this is the least vertex of its connected component. (False, as regards the per-thread lists, with more threads than bins; on directed graphs the labels are not those of weak components.)",
  "every graph, number of bins, number of threads, placement of the work on threads and interleaving of the atomic steps",
  "graphs, interleavings of concurrent label updates, and placements of tasks on threads are unbounded",
  [I+"experimental/algorithms/connected_components.hpp: writeMin, lpcc, lpcc_cyclic"])

p("The two remaining experimental connected-components functions label exactly the components",
  "compute_connected_components and compute_connected_components_v1 of the experimental directory end without reading or writing outside their arrays and give two vertices the same label exactly when they are connected. (False: equal labels do imply connection, but on a symmetric graph with one edge the first, and on a symmetric path-like graph of six vertices the second with a single thread, give connected vertices different labels.)",
  "every graph and, for the second, every interleaving of the atomic steps",
  "graphs and interleavings are unbounded",
  [I+"experimental/algorithms/connected_components.hpp: compute_connected_components, compute_connected_components_v1"])

p("BCVerifier accepts exactly the betweenness scores",
  "BCVerifier ends without reading or writing outside its arrays and returns true exactly when every entry of the tested vector is within the tolerance of the betweenness of the vertex with respect to the given sources (normalised by the largest one on request). (False: a vertex that is a source is expected to have in addition the number of vertices it reaches; an integral counting type accepts everything off by less than one; if no source reaches another vertex normalisation accepts every vector.)",
  "every graph, list of sources and tested vector",
  "the graphs, source lists and score vectors are unbounded",
  [I+"algorithms/betweenness_centrality.hpp: BCVerifier"])

p("The experimental delta stepping routines return the distances",
  "delta_stepping_v6, _v8, _v9, _v10 and _v11 end without reading or writing outside their arrays, under every schedule and however the library cuts the frontier into blocks, and return the least weight of a path from the source to every vertex, the largest value where there is none. (False of v6: two threads that both saw an old distance can leave the larger one; false of v9, v10, v11: they read an uninitialised flag.)",
  "every graph, weighting, source, positive step width and schedule",
  "the interleavings of the threads and the cuts of the frontier are unbounded",
  [I+"experimental/algorithms/delta_stepping.hpp: delta_stepping_v6, delta_stepping_v8, delta_stepping_v9, delta_stepping_v10, delta_stepping_v11"])

p("The experimental PageRank versions approximate the PageRank vector",
  "page_rank_vc, _v1, _v4, _v6, _v7, _v8, _v9, _v10 and _v14 end without reading or writing outside their arrays, under every schedule, for every number of threads and however the library shares out the vertices. They run at most max_iters rounds. The scores agree with the PageRank vector up to the relative error (1-(1-d)/n)^rounds/(1-d), and up to threshold*n^2/(1-d)^2 if they stop early.",
  "every graph whose degrees count at least the links, damping factor in [0,1), threshold, number of rounds, number of threads and schedule",
  "the interleavings, the numbers of rounds and the ways to share out the vertices are unbounded",
  [I+"experimental/algorithms/page_rank.hpp: page_rank_vc, page_rank_v1, page_rank_v4, page_rank_v6, page_rank_v7, page_rank_v8, page_rank_v9, page_rank_v10, page_rank_v14", I+"adaptors/edge_range.hpp: edge_range"])

p("page_rank_v2 approximates the PageRank vector although it begins without contributions",
  "page_rank_v2 ends without reading or writing outside its arrays after at most max_iters rounds. The scores agree with the PageRank vector up to the relative error (1-(1-d)/n)^rounds/(1-d), and up to threshold*n^2/(1-d)^2 if it stops early, also if it stops after the first round.",
  "every graph whose degrees count at least the links, damping factor in [0,1), threshold and number of rounds",
  "the number of rounds until the threshold is met is unbounded, and the error is compared with an exact solution",
  [I+"experimental/algorithms/page_rank.hpp: page_rank_v2"])
p("page_rank_v3, page_rank_v12 and page_rank_v13 approximate the PageRank vector",
  "The scores of the versions that leave out small contributions or residuals approximate the PageRank vector, under every schedule. (False: page_rank_v12 ignores all links when the threshold is at least 1/n; the scores of page_rank_v3 and page_rank_v13 add up to more than one when n(1-d) > 1.)",
  "every graph whose degrees count at least the links, damping factor in [0,1), threshold, number of rounds and schedule",
  "the numbers of rounds and the interleavings are unbounded, and the error is compared with an exact solution",
  [I+"experimental/algorithms/page_rank.hpp: page_rank_v3, page_rank_v12, page_rank_v13"])

p("bc2_v1 and approx_betweenness_brandes return the betweenness with respect to the sources",
  "The two sequential experimental routines end without reading or writing outside their arrays. The score of every vertex is the sum, over the given sources other than it and over all targets other than it, of the fraction of shortest paths that pass through it, divided by the largest score (bc2_v1: if asked to).",
  "every non-empty graph and every list of sources, also with repetitions, whose numbers of shortest paths fit the counting type",
  "the numbers of shortest paths and the phases are unbounded",
  [I+"experimental/algorithms/betweenness_centrality.hpp: approx_betweenness_brandes, bc2_v1"])
p("bc2_v0 returns the betweenness with respect to the sources",
  "bc2_v0 returns the same scores as bc2_v1. (False: a source that reaches other vertices gets their number on top, for every time it occurs among the sources.)",
  "every non-empty graph and every list of sources whose numbers of shortest paths fit the counting type",
  "the numbers of shortest paths and the phases are unbounded",
  [I+"experimental/algorithms/betweenness_centrality.hpp: bc2_v0"])

p("bc2_v3 and bc2_v4 return the betweenness with respect to the sources",
  "Under every scheduling of their parallel loops the two routines end without reading or writing outside their arrays and return the betweenness of every vertex with respect to the sources, divided by the largest score if asked to. (False: a source that reaches other vertices gets their number on top for every time it occurs among the sources; with an integral counting type bc2_v4 also rounds the quotients of path counts down.)",
  "every non-empty graph, every list of sources whose numbers of shortest paths fit the counting type, every number of bins, every interleaving of the tasks",
  "the number of interleavings is unbounded",
  [I+"experimental/algorithms/betweenness_centrality.hpp: bc2_v3, bc2_v4"])

p("bc2_v2 returns the betweenness with respect to the sources",
  "Under every scheduling of its parallel loops the routine ends without reading or writing outside its arrays and returns the betweenness of every vertex with respect to the sources, divided by the largest score if asked to. (False: the path counts are raised without synchronisation; on the square 0-1-3, 0-2-3 there is a schedule in which one of the two additions to the count of vertex 3 is lost, and vertices 1 and 2 get the score 1 instead of 1/2. True of graphs in which every vertex has at most one shortest path from each source.)",
  "every non-empty graph, every list of sources, every interleaving of the tasks of the edges",
  "the number of interleavings is unbounded, and most of them do not lose an update",
  [I+"experimental/algorithms/betweenness_centrality.hpp: bc2_v2"])

p("Zipped columns behave like an array of tuples",
  "Whatever an algorithm does through the iterators of a struct of arrays or of a zip of ranges (reads, assignments, swaps), it computes the same result as on an array of tuples, and afterwards the columns are those of that array; entries beyond the end of the first column are never touched. In particular sorting the range moves the entries of all columns in the same way. A column shorter than the first is read past its end.",
  "every number and type of columns, all contents, every algorithm that uses the iterators",
  "the algorithms (std::sort, std::unique, ...) and the contents are arbitrary",
  [I+"containers/zip.hpp: zipped, make_zipped", I+"containers/soa.hpp: struct_of_arrays", I+"util/tuple_hack.hpp: swap"])
p("The sorting helpers of edge lists rearrange the edges into the requested order",
  "sort_by, stable_sort_by, lexical_sort_by and lexical_stable_sort_by rearrange the edges together with their properties and change nothing else; afterwards the edges are ordered by the chosen endpoint, or lexicographically; the stable variants keep the order of edges with equal keys. Lexical sorting followed by uniq leaves exactly one edge per pair of endpoints. permute and degrees of a graph give the same result under every schedule.",
  "every edge list, every sorting algorithm that meets the contract of std::sort or std::stable_sort, every schedule of the loops",
  "edge lists are unbounded and the result of std::sort is not determined by its contract",
  [I+"build.hpp: sort_by, stable_sort_by, lexical_sort_by, lexical_stable_sort_by, permute, swap_to_triangular, degrees, uniq"])

p("jones_plassmann_coloring2 gives joined vertices different colours",
  "On every non-empty graph without loops the routine ends without a fault and colours every vertex so that the ends of an edge have different colours. (False: on every graph whose edges are stored in both directions all vertices get the colour 0, because the search for a free colour takes the value of a counter instead of its index.)",
  "every graph without loops, every previous content of the vector of colours",
  "the claim is about every edge of every graph",
  [I+"experimental/algorithms/jones_plassmann_coloring.hpp: jones_plassmann_coloring2"])

p("UnionBySplicing puts exactly the connected elements into one set",
  "After every element has been made a singleton with reset(i), every sequence of calls of UnionBySplicing ends without a fault, and two elements are then in the same set exactly if the calls connect them. (False: UnionBySplicing(0, 1) and then UnionBySplicing(0, 2) leaves 1 on its own. What holds: elements in the same set are connected by the calls, the two elements of the last call are in the same set, and a call whose two arguments are roots puts their two sets together and changes nothing else.)",
  "every number of elements, every sequence of calls",
  "the claim is about every history of calls",
  [I+"util/disjoint_set.hpp: disjoint_set::UnionBySplicing, disjoint_set::reset"])
p("getCompactDisjSets numbers the different entries",
  "getCompactDisjSets() gives two elements the same label exactly if their entries are equal, and the labels are exactly the numbers from 1 to the number of different entries.",
  "every content of the array",
  "the claim is about every pair of elements of every array",
  [I+"util/disjoint_set.hpp: disjoint_set::getCompactDisjSets"])

p("A memory-mapped Matrix Market file can be read in parts",
  "mmio::MatrixMarketFile opens every coordinate file (with its numbers of rows, columns and entries and its symmetry), and for every way to cut the numbers 0 to nnz into consecutive ranges, the ranges edges(b, e) read one after the other give every entry of the file exactly once and in order, with zero-based coordinates and its value, although the position of an entry in the file is only guessed. (Proved for files in which every line ends with a newline and the sizes directly follow the comments. False otherwise: with a blank line before the sizes the first entry is read twice, with a comment behind such a line opening the file never ends, and going on behind a last line without a newline reads outside the mapping.)",
  "every content, every cut into ranges, every monotone approximation of positions in floating point, every reader of values",
  "the claim is about every file and every cut into ranges",
  [I+"io/MatrixMarketFile.hpp: MatrixMarketFile, MatrixMarketFile::edges, MatrixMarketFile::at, MatrixMarketFile::iterator", I+"io/mmio_nist.h: mm_read_banner, mm_read_mtx_crd_size"])

p("build_random_sources returns n vertices with edges",
  "build_random_sources(graph, n, seed) ends and returns n vertices of the graph, each with at least one edge. (Proved: as long as the generator gives vertices, the result are the first n values with an incoming edge, and build_degrees counts incoming edges under every schedule. False in general: the distribution includes the number of vertices itself, which reads the degrees out of bounds; the search never ends if there are no such vertices; and a source without outgoing edges can be chosen in a directed graph.)",
  "every graph, every sequence of random numbers, every schedule of the increments",
  "the claim is about every seed and schedule",
  ["bench/common.hpp: build_degrees, build_random_sources"])
p("load_graph returns the graph in the file, in both formats",
  "load_graph(file) of a file written by serialize returns that edge list; of a coordinate Matrix Market file it returns the entries of the file, as read_mm does. load_sources_from_file(graph, file, n) returns the vertices in the file, and ends the program if n is given and differs from their number.",
  "every edge list that fits in memory, every Matrix Market file, every n",
  "the claim is about every file",
  ["bench/common.hpp: load_graph, load_sources_from_file", I+"edge_list.hpp: serialize", I+"io/mmio.hpp: read_mm, read_mm_vector"])

p("approx_betweenness_worklist_serial computes betweenness",
  "approx_betweenness_worklist_serial(A, sources) ends and returns, divided by the largest one, the betweenness of every vertex with respect to the sources, in the graph where parallel edges count once; without parallel edges this is the result of the other versions. (With parallel edges it differs from them; on a graph without vertices it dereferences the end of an empty range.)",
  "every graph with fewer vertices than the number that marks unreached vertices, every list of sources, every order in which the unordered sets are visited",
  "the claim is about every graph and every order of the hash sets",
  [I+"experimental/algorithms/betweenness_centrality.hpp: approx_betweenness_worklist_serial"])

p("approx_betweenness_worklist computes betweenness on any number of threads",
  "approx_betweenness_worklist(A, sources, num_threads, DELTA) ends without a fault or deadlock for every interleaving of its threads and returns the betweenness of every vertex with respect to the sources (not normalised, parallel edges counted once). (It does not: a thread takes an item and leaves without treating it if the work list has become empty, so the last item of every search and the last vertex of every way back is lost; from a source with one edge nothing is ever reached. What holds is that the search ends, is exact whenever the lost items would change nothing, and that on the way back every score grows by the whole dependency or not at all. A loop makes a thread lock one vertex twice and wait for ever.)",
  "every graph, every source, every number of threads and every interleaving of their steps",
  "the claim is about every schedule of an asynchronous search in which levels and path counts are corrected again and again",
  [I+"experimental/algorithms/betweenness_centrality.hpp: approx_betweenness_worklist", I+"adaptors/worklist.hpp: WorkList"])

p("approx_betweenness_worklist_noabstraction computes betweenness on any number of threads",
  "approx_betweenness_worklist_noabstraction(A, sources, num_threads, par_thresh, DELTA) ends without a fault or deadlock for every schedule of its threads and returns, divided by the largest one, the betweenness of every vertex with respect to the sources, parallel edges counted once. (It does not: at the end of every search it reads the bucket after the last one. If that read is harmless the claim holds for one source, and with more than one thread only in graphs without loops; with more than one source, records of the edges kept from the previous source make path counts wrong.)",
  "every graph, every source, every number of threads, threshold and DELTA > 0, every order of the items of a parallel round and every interleaving of the threads on the way back",
  "the claim is about every order in which the items of a round are treated and every interleaving of threads with private buffers and locks that are never released",
  [I+"experimental/algorithms/betweenness_centrality.hpp: approx_betweenness_worklist_noabstraction"])

p("The triangle counting benchmark reports the number of triangles of the graph that was read",
  "tc reports the number of triangles of the simple graph under the edges of the file (loops and repeated edges do not count), whichever version is chosen, with any number of threads, any --format, with --relabel, --heuristic or --lower or without; --verify computes the same number. (False for --lower: the default version and six others report 0 for every graph. --verify writes beyond the end of a vector whenever there is a triangle. --relabel --heuristic divides by zero on a graph without vertices.)",
  "every edge list, every combination of the options, every version and number of threads, every result of the library's unstable sorts and every random draw, every schedule",
  "the result must not depend on the order of vertices of equal degree, on the sorts or on the schedule, for every graph",
  ["bench/tc.cpp: main, clean, compress, tc_relabel, worth_relabeling, TCVerifier", I+"build.hpp: relabel_by_degree, swap_to_triangular, lexical_sort_by, uniq, remove_self_loops, push_back_fill", I+"algorithms/triangle_count.hpp: triangle_count", I+"experimental/algorithms/triangle_count.hpp: triangle_count_v1 ... triangle_count_v14"])

p("The shortest path benchmark's verifier accepts exactly the correct results",
  "sssp --verify accepts the distances that an algorithm returns if and only if they are correct, for every graph and source; its own dijkstra is correct whatever the heap hands out; with -n TRIALS and -i ITERATIONS the sources are used one after the other. (False: the verifier marks unreachable vertices with max()/4, the library's algorithms with max(), so every correct result for a graph with an unreachable vertex is rejected; vectors that are too short are accepted and vectors that are too long are compared beyond the end; -r or random sources with more than one iteration read beyond the list of sources.)",
  "every weighted graph, source and vector of distances, every order in which the heap hands out vertices, every number of trials and iterations",
  "the heap's comparison looks at distances that change while vertices are in the heap, so the claim is about every order; acceptance is about every graph and every vector",
  ["bench/sssp.cpp: dijkstra, SSSPVerifier, sssp, main", I+"algorithms/delta_stepping.hpp: delta_stepping"])

p("The connected components benchmark reports the components of the graph that was read",
  "cc prints the number of connected components of the edge list that was read, and the sizes of the five largest in descending order, whatever --relabel, --direction, --clean and --succession do to the graph, with every version, number of threads and schedule, and --verify accepts the labels. (False: versions 0 and 7 read out of bounds, and where that has no effect they report one component too many, of a vertex that does not exist; versions 10 and 11 split components of files that are not symmetric; --verify never accepts.)",
  "every edge list, every combination of the options, every version, number of threads and schedule, every order of the unordered map and every result of the unstable sorts",
  "the options rename, reverse, reorder and delete edges, so the claim is about what every combination does to every graph; the versions are parallel and race on the labels",
  ["bench/cc.cpp: print_top_n, main", I+"algorithms/connected_components.hpp: afforest, CCVerifier", I+"experimental/algorithms/connected_components.hpp: ccv1, compute_connected_components_v2, ccv5, sv_v6, sv_v8, sv_v9, lpcc, lpcc_cyclic", I+"build.hpp: relabel_by_degree, swap_to_triangular, lexical_sort_by, uniq, remove_self_loops"])

p("Adjacency lists that grow hold exactly the edges pushed",
  "Whatever the order of the sources and whatever gaps there are between them, after any sequence of push_back(i, j, attributes...) on a vov, adj_list or adj_flist the graph has as many vertices as at first or as the largest source needs, the list of a vertex holds exactly the targets pushed for it with their attributes, in the order of the pushes (for adj_flist the latest first), and num_edges() is the number of entries; constructed from an edge list it holds its edges. (False for num_edges(), which reads an uninitialised variable, or tells an outdated number; targets can be no vertices of the graph.)",
  "every initial number of vertices, every sequence of pushes with any sources, targets and attributes; every edge list, directed or not",
  "the sequences of pushes are unbounded, and the order of the sources decides when the outer vector grows",
  [I+"vovos.hpp: vector_of_vector_of_structs, index_vov", I+"volos.hpp: index_adj_list", I+"vofos.hpp: index_adj_flist", I+"build.hpp: fill_adj_list, push_back_fill_helper"])

p("The iterators of edge lists, zipped ranges and graphs are random access iterators",
  "For an edge list or any other struct_of_arrays, a zipped range, and the vertices of a compressed graph: ++, --, + and - by any distance forwards or backwards lead to the right position, all six comparisons order the positions, *i and i[d] read all the columns, or the neighbours, at the position, and i - j is the distance. (The distance is false for graphs with 2^31 or more vertices and the default index type: end() - begin() is negative.)",
  "every number and type of columns, every length, all pairs of positions from begin() to end(), all distances between them",
  "the laws are about unsigned arithmetic with wrap-around, at lengths up to the limits of the types that no test allocates",
  [I+"containers/soa.hpp: struct_of_arrays::soa_iterator", I+"containers/zip.hpp: zipped::soa_iterator", I+"containers/compressed.hpp: indexed_struct_of_arrays::my_outer_iterator"])

p("The breadth-first search benchmark finds the trees of the file's graph","Run on any graph file, with any list of versions, numbers of threads and sources, the benchmark `bfs` makes every trial, each result is a breadth-first search tree from the source along the edges of the file, and the verifier accepts it.","every edge list with endpoints in range and fewer than 2^32 vertices; every list of versions, thread counts and sources; every value of -a, -b and -B; every schedule of the parallel versions; every behaviour of the sorts used to build the graphs","The claim ranges over all files, option combinations and schedules; the benchmark's own verifier cannot notice that both graphs are reversed, because it checks against the same reversed graphs.",["bench/bfs.cpp: main", "bench/common.hpp: build_adjacency", I+"algorithms/bfs.hpp: bfs, BFSVerifier", I+"experimental/algorithms/bfs.hpp: bfs_v1, bfs_v2, bfs_v6, bfs_v7, bfs_v8, bfs_v9, bfs_top_down, bfs_top_down_bitmap, bfs_bottom_up"])

p("The PageRank benchmark reports the PageRank of the file's graph","Run on any graph file, with any list of versions and numbers of threads, the benchmark `pr` reports for each pair of a number of threads and a version one score for each vertex; the scores approximate the PageRank of the graph in the file (each vertex shares its score among the edges that leave it), and with --verify it prints the vertices with the largest scores.","every edge list with endpoints in range and at least one vertex; every list of versions and thread counts; every tolerance, iteration limit and number of trials; every schedule of the parallel versions; every behaviour of the sorts used to build the graph and to rank the vertices","The claim ranges over all files, options and schedules, and an array of scores passes from trial to trial; the benchmark does not check its scores.",["bench/pr.cpp: main, print_n_ranks", "bench/common.hpp: build_adjacency, build_degrees", I+"algorithms/page_rank.hpp: page_rank", I+"experimental/algorithms/page_rank.hpp: page_rank_v1, page_rank_v2, page_rank_v3, page_rank_v4, page_rank_v6, page_rank_v7, page_rank_v8, page_rank_v9, page_rank_v10, page_rank_v12, page_rank_v13, page_rank_v14", I+"util/proxysort.hpp: proxysort"])

p("The betweenness benchmark reports the betweenness of the file's graph","Run on any graph file, with any list of versions, numbers of threads and sources, the benchmark `bc` makes one trial for each triple of a number of threads, a version and a group of sources; each trial yields the betweenness of every vertex with respect to its sources (all vertices for the exact versions) in the graph of the file, divided by the largest one, and the verifier accepts it.","every edge list with endpoints in range, at least one vertex and fewer than 2^53 shortest paths between any two vertices; every list of versions and thread counts; every partition of the sources into trials; every schedule of the parallel versions; every behaviour of the sorts used to build the graph","The claim ranges over all files, options and schedules; the benchmark drops the verdict of the verifier, and the verifier repeats the mistake of the versions that it checks.",["bench/bc.cpp: main", "bench/common.hpp: build_adjacency", I+"algorithms/betweenness_centrality.hpp: brandes_bc, exact_brandes_bc, approx_betweenness_brandes, BCVerifier", I+"experimental/algorithms/betweenness_centrality.hpp: bc2_v0, bc2_v1, bc2_v3, bc2_v4"])

p("The sets that are read out of a disjoint_set are those that were joined","After any history of looking for representatives and joining sets (by size or by height), two elements have the same representative exactly if the calls have joined them, directly or through others; forEachRootIndex visits one element of every set and forEachRoot passes its size; getSubsets lists the sets; getCompactDisjSets labels two elements alike exactly if they are in the same set and reports how many sets there are; join and reset move elements between sets.","every number of elements, every history of calls with elements in range","A history has no bound; the functions that read the sets are right on some states and wrong on others.",[I+"util/disjoint_set.hpp: class disjoint_set: find_with_pathcompression, combineBySize, combineByHeight, getSubsets, getCompactDisjSets, getSetNumber, forEachRoot, forEachRootIndex, join, directJoin, directFind, reset, allToSingletons, unionBySizeAtomic"])

p("A converted graph file loads like the original","Loading the file that process_edge_list -d (or -u) writes from a Matrix Market file gives the same edge list, with or without the attribute, as loading the Matrix Market file itself in a benchmark for directed (or undirected) graphs, and that list has exactly the edges of the file; the program writes exactly the files it is asked for; the list has the form on which the results of the benchmarks rest.","every well-formed Matrix Market file whose numbers fit the id type, every size of ids and attributes, both options","The two file formats are read by different code; a test compares a few files.",["bench/ProcessEdgelist.cpp: main, eval", "bench/common.hpp: load_graph", I+"edge_list.hpp: serialize, deserialize", I+"io/mmio.hpp: read_mm"])
p("The source checker reports the sources that differ","The tool sources reports the number of positions at which a file of sources, counted from 1, differs from the vertices that build_random_sources selects: of the vertices drawn, in order, those that at least one edge leaves. It reports none exactly if the file lists those, and reports a wrong number of sources otherwise.","every graph, file of sources, sequence of random numbers, number of trials and iterations","The random numbers and the graph are unbounded.",["bench/SourceVerifier.cpp: main", "bench/common.hpp: build_random_sources, build_degrees, build_adjacency", I+"io/mmio.hpp: read_mm_vector"])

p("Atomic minimum, maximum, sum and counters lose no update","When any number of threads call writeMin, writeMax or writeAdd on one location, or advance one of the counting output iterators with a mutex or an atomic counter, the final value is the minimum, maximum or sum of the old value and all arguments, or the number of elements written, and the calls take effect one after the other: each call to writeMin says true exactly if it lowered the value.","every number of threads, arguments, initial value and interleaving of the atomic accesses","Lost updates show only under particular interleavings.",[I+"algorithms/detail/disjoint_set.hpp: writeMin, writeAdd", I+"algorithms/experimental/connected_components.hpp: writeMin", I+"util/util_par.hpp: par_counting_output_iterator, atomic_counting_output_iterator", I+"util/util.hpp: counting_output_iterator"])
p("The table of times reports minimum, maximum and average","For every combination of file, algorithm and number of threads that was timed, the printed table has exactly one line, in the order of the combinations, with the least, greatest and average of the times recorded for it; the columns are wide enough that the lines align.","every sequence of recorded times and combinations","The number of samples and combinations is unbounded.",["bench/common.hpp: Times::append, print, average, minmax, minmaxavg"])
p("Arrays of structs are saved, loaded and compared as they are","Reading what array_of_structs::serialize has written, into any array of the same type, gives the same tuples and leaves the rest of the stream to be read; == says whether two arrays are equal.","every array, tuple layout and array read into","The tuples and lengths are unbounded.",[I+"containers/aos.hpp: serialize, deserialize, operator==, push_back"])
p("histogram counts the occurrences","If all values are less than the size of the output, histogram leaves in every position of the output the number of times it occurs in the input, whatever the output held before; otherwise the output is accessed out of bounds.","every input and output","The input is unbounded.",[I+"util/util.hpp: histogram"])

p("The oracle example prints least numbers of links and chains that prove them","For every list of titles with their casts, the example that searches from one chosen name prints, for everyone joined to that name by links of common titles, the least number of links, and as many lines that form a chain to the chosen name, each naming two different members of the cast of the title it names; the furthest distance it prints is the largest of these numbers.","every list of titles and casts whose ids fit the id type, every chosen name, every name asked for, every order in which the parallel build places the neighbours","The data, the chains and the order of the neighbours are unbounded.",["examples/imdb/oracle.cpp: main, path_to_bacon", "examples/imdb/dblp.cpp: main", "examples/imdb/oracle+dblp.cpp: main", I+"adaptors/bfs_edge_range.hpp: bfs_edge_range"])
p("The hypergraph example finds exactly the pairs that share two entries","In the graph that the s-overlap example ends with, j is a neighbour of i exactly if they are different and share at least two entries of the incidence list, and no neighbour occurs twice, whatever the order in which the threads enter the critical section.","every incidence list and every order of the critical sections","The incidence lists are unbounded and the order of the threads is not under the control of a test.",["examples/imdb/dns.cpp: main"])
p("delink returns the text of a link","A text without [[ is returned as it is; of ...[[page]]... the page is returned and of ...[[page|text]]... the text.","every text before, in and after the brackets","The texts are unbounded.",["examples/imdb/oracle.cpp: delink"])

p("Every way to write a loop over the edges executes the same statements in the same order","The loop over the offset and target arrays, the loop over graph[i], the nested loop over the graph, the loop over its neighbor_range and the loop over its edge_range execute a statement for the same edges in the same order, so that a product with a vector or a count of edges is the same whichever is used, even in floating point.","every graph, every statement and every state it starts from","The graphs, the statements and the values are unbounded.",["apb/spmv.cpp: apb_adj", "apb/plain.cpp: apb_adj", "apb/containers.cpp", "apb/tbb.cpp: apb_adj", I+"adaptors/edge_range.hpp: edge_range", I+"adaptors/neighbor_range.hpp: neighbor_range"])
p("Parallel loops over an edge range lose no update","A parallel loop over the pieces of an edge range that updates, for each edge, the entry of its source or of its target with a plain load and store leaves in each entry what the sequential loop leaves there.","every graph, every way to divide the range, every order of the loads and stores of the threads","The ways to divide the range and the interleavings are not under the control of a test.",["apb/tbb.cpp: apb_adj", I+"adaptors/edge_range.hpp: edge_range"])
p("The search benchmarks visit exactly what can be reached","The breadth-first and the depth-first loop of the benchmarks end, stay within the arrays and mark exactly the vertices that can be reached from the seed.","every graph whose edges stay within it and every seed that is one of its vertices","The graphs and the lengths of the walks are unbounded, and the depth-first loop expands vertices again, so that its termination is not obvious.",["apb/bfs.cpp: apb_adj", "apb/dfs.cpp: apb_adj"])

p("Printing a graph writes its edges to the stream that is given","stream, stream_edges, stream_indices and stream_stats write to the stream that is given, and to no other, a text from which the edges can be read again: one line for each edge or vertex, in order.","every graph, every stream and everything already written to it","The graphs and the numbers in them are unbounded, and a test that captures std::cout does not see that the argument is ignored.",[I+"edge_list.hpp: stream_edges, stream_stats, stream", I+"containers/compressed.hpp: stream, stream_indices, stream_stats", I+"containers/aos.hpp: stream, print_helper"])
p("A provenance holds the notes that were pushed","After any calls of push_back a provenance holds the notes in order, each without white space around its parts; streaming it prints one line for each note, after the prefix; assigning it makes a copy.","every sequence of notes and every assignment","The notes and their number are unbounded.",[I+"util/provenance.hpp: provenance, trim, ltrim, rtrim"])

p("dfs_edge_range goes along the edges of a depth-first search","A loop over dfs_edge_range visits the edges of the depth-first search from the seed: each edge leaves the vertex reached last among those with a neighbour not yet reached, to the first such neighbour. So each vertex that can be reached, and no other, is entered exactly once.","every graph and every seed","The graphs are unbounded, and so are the depth of the stack and the number of vertices left at once.",[I+"adaptors/dfs_range.hpp: dfs_edge_range, dfs_edge_range_iterator"])

p("A timer reports the time from its last start to its last stop","elapsed() of a timer is the number of whole units from the last start to the last stop, whatever was called before; lap() stops and returns the same; printing a timer prints that number with its name and unit; a life_timer with a name prints its lifetime when it ends.","every history of calls, every reading of the clock and every name","The histories and the readings of the clock are unbounded, and a test does not set the clock back nor run long enough to lose digits.",[I+"util/timer.hpp: timer, life_timer, operator<<"])

p("The type code of a Matrix Market file says what its banner says","mm_read_banner accepts exactly the banners of the format and returns the letters of their words; mm_typecode_to_str writes these words, and what it writes is read again; mm_is_valid accepts exactly the types that the format has; mm_read_mtx_array_size returns the sizes behind the comments.","every text and every type code","Texts are unbounded, and of the type codes tests try a few.",[I+"io/mmio_nist.h: mm_read_banner, mm_typecode_to_str, mm_is_valid, mm_read_mtx_array_size"])

p("A struct of arrays behaves like a vector of tuples","After any sequence of push_back, push_at, clear, resize, reserve, move and copy, a struct_of_arrays holds the tuples that a vector of tuples would hold after the same operations, size() is their number and operator[] returns them; the constructors start from no tuples, default tuples or the given ones.","every number and types of the columns, every sequence of calls and all their arguments","The sequences of calls and their arguments are unbounded.",[I+"containers/soa.hpp: struct_of_arrays, push_back, push_at, clear, resize, reserve, move, copy, size, operator[]"])

p("Atomic bit vectors are values that can be moved, and give their memory back","Whatever a program does with any number of AtomicBitVector objects (construct them with or without clearing, move-construct, move-assign, also to themselves, clear, get, set, destroy), each is a value of its own: calls return what they return for independent sets of indices, no memory is used after it was freed or freed twice, and when all objects have been destroyed all memory has been freed.","every word size, every number of objects, every sequence of operations on them","The histories of the objects are unbounded, and leaks and reuse of freed memory are not seen in results.",[I+"util/AtomicBitVector.hpp: AtomicBitVector, ~AtomicBitVector, operator=, clear, get, set"])

p("The log of a benchmark is a table of all measurements","The log of a benchmark driver is a heading, if wanted, and one line for each measurement, in order; the words of a line are those of its columns (run, branch, revision, compiler, build, date, host, algorithm, version, threads, graph, values) and stand below those of the heading; it is appended to the file.","every machine, every collection of measurements, every file and its previous contents","Names of machines, branches and files, and the number of measurements, are unbounded.",["bench/Log.hpp: Log, log_result_header, operator(), print, log"])

p("The Dijkstra example computes least weights, also with negative weights","apb/dijkstra.cpp ends and every trial of its six variants leaves, for each vertex, the least weight of a walk from the seed, or the largest value where there is none, whatever the queue hands out, if the seed is a vertex and no negative cycle can be reached from it; weights may be negative; a trial does not depend on the ones before it. If a negative cycle can be reached, the example never ends. It prints a line for each variant. (False: there is no line for the fourth variant. The seed is not checked.)","every graph with weights of any sign, every seed, every number of trials, every function for the weights, every order in which the queue hands out its entries","Least weights over all walks, termination with negative weights and the order of the queue are about unboundedly many cases.",["apb/dijkstra.cpp: apb_adj, main"])

p("The benchmark of execution policies computes the same product in all its variants","apb/exec.cpp: every trial of the four variants leaves the product of the matrix of the graph and the vector, in whatever order a parallel policy treats the rows and however a parallel reduction forms the sum of a row. (False: the third variant goes over the graph with begin() and end() and so, for the graph that the program builds, reads beyond its last row; and it counts the rows in a variable that all treatments share, so that with a parallel policy for the outer loop, which the template accepts, rows are put at wrong positions.)","every edge list, every vector, every number of trials, every order of the rows and every way to form a sum","All orders and all ways to form a sum, for graphs of any size.",["apb/exec.cpp: apb_adj, main","include/nwgraph/containers/compressed.hpp: begin, end"])

p("The example on the tables of IMDb prints least numbers of links through movies","examples/imdb/imdb.cpp: for everyone joined to the chosen person by links of two who acted in the same movie, the example prints the least number of links, and as many lines that form a chain to the chosen person, each naming two different actors of the movie it names. (False: a credit for a title that is not a movie, a series for instance, is taken for a credit for the first row of the table of titles, its heading, so that any two actors of such titles are linked.)","every three tables whose numbers of rows fit the id type, every chosen person, every person asked for, every order in which the parallel build places the neighbours","The tables, the chains and the order of the neighbours are unbounded.",["examples/imdb/imdb.cpp: main","include/nwgraph/adaptors/bfs_edge_range.hpp: bfs_edge_range"])

p("A permutation iterator goes through the elements in the order of the permutation","util/permutation_iterator.hpp: going from an iterator to one with the same base and a larger index, the loop gives the elements at the positions that the function gives, in this order, and ends; with a permutation of the numbers below n, every one of the n elements from the base on comes once. Copying to an iterator puts the values at these positions, if they are different, and changes nothing else. A position that is not in the vector is an access out of bounds, and with an end that is behind or has another base the loop does not end.","every vector, every base, every function of the index, every number of steps","All vectors and all functions.",["include/nwgraph/util/permutation_iterator.hpp: permutation_iterator"])

p("unionBySizeAtomic can be called by several threads","util/disjoint_set.hpp: if several threads call unionBySizeAtomic(u, v) at the same time, each with a representative u, then under every schedule all calls return, and two elements are in the same set afterwards exactly if they were before or the calls connect them. (False: calls that work one after the other can make an element its own parent, so that find_with_pathcompression never returns; they can also lose a join and join elements that no call has named. It holds for calls that do not meet: no two second arguments in one set, no second argument in the set of another call's first argument, and a first argument shared only by calls with second arguments that are not larger.)","every number of elements, every history before, every number of threads and their arguments, every interleaving of their accesses","Schedules have no bound, and most of them give the right sets.",["include/nwgraph/util/disjoint_set.hpp: disjoint_set::unionBySizeAtomic, find_with_pathcompression, writeAdd"])

p("The search-based connected components may run in parallel","compute_connected_components of the experimental directory, which asks for a parallel loop: under every schedule it ends without a fault, and vertices get the same label only if they are connected. (False: on every graph there is a schedule under which all vertices get the same label, because the counter is read again after it was raised. What holds: it ends under every schedule, and every vertex has a label less than the number of vertices; in order, vertices with the same label are connected.)","every graph with in-range neighbours, every unsigned label type that holds the number of vertices, every interleaving of the tasks","Schedules have no bound, and a test run usually starts the tasks one after the other.",["include/nwgraph/experimental/algorithms/connected_components.hpp: compute_connected_components"])

p("Weights that do not fit the distance type do no harm to distances that do","dijkstra(graph, source) and delta_stepping(graph, source, delta) with an unsigned distance type end without a fault whatever the weights are, and every entry they return is 0 for the source, the value for unreachable vertices, or the weight of a walk; distances that fit the type are right even if other walks are too heavy for it. (False: sums wrap around, and the least weight 50 is reported as 44 when there is a detour of weight 300. What holds: both end, and entries are weights of walks modulo the number of values of the type.)","every graph with in-range neighbours, every weight, every source, every positive delta, every order of the queue","Graphs and weights are unbounded; tests use weights far below the limits of the type.",["include/nwgraph/algorithms/dijkstra.hpp: dijkstra","include/nwgraph/algorithms/delta_stepping.hpp: delta_stepping"])

p("Shortest paths with weights of any sign","dijkstra(graph, source) and delta_stepping(graph, source, delta) with a signed distance type and weights of any sign: if no cycle of negative weight can be reached from the source, both end and return the least weights of walks. dijkstra never ends if such a cycle can be reached, and a source that is no vertex fails its assertion. (True of dijkstra. False of delta_stepping: if the first edge of the source weighs at most -delta, it accesses a bin that does not exist or asks for too many bins; with smaller negative steps a vertex can stay in a bin that is never visited again, and what lies behind it is reported as unreachable.)","every graph with in-range neighbours, every weight whose sums fit, every source, every positive delta, every order of the queue","Graphs are unbounded; the tests of the library have weights that are not negative.",["include/nwgraph/algorithms/dijkstra.hpp: dijkstra","include/nwgraph/algorithms/delta_stepping.hpp: delta_stepping"])

p("A saved file that was cut short is not loaded as a complete one","If the file written by serialize of an edge list or of a compressed structure ends too early, deserialize reports it and does not return some other edge list. (False of the code: no read is checked. Cut near its end, the file is loaded without an error and the ids or attributes that are missing become 0; cut earlier, an exception that nobody catches ends the program, or a variable is used that was never set. What holds: every cut makes some read come short, so that a check of the stream would notice it.)","every edge list and every compressed structure that fits in memory, every place where the file can end","A crash while the file is written can cut it anywhere; a test cuts it in a few places.",["include/nwgraph/edge_list.hpp: deserialize","include/nwgraph/containers/soa.hpp: deserialize","include/nwgraph/containers/compressed.hpp: deserialize","include/nwgraph/graph_base.hpp: deserialize"])

if __name__ == "__main__":
    with open("properties.jsonl", "w") as f:
        for x in P:
            f.write(json.dumps(x, ensure_ascii=False) + "\n")
    print(len(P))
