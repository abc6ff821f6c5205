# Formal model of NWGraph in Lean 4: design

## Layout

| directory | contents |
|---|---|
| `lean/Verif/Base.lean` | outcomes (`Fault`), checked vector access, big-step `Loop` semantics of `while` loops |
| `lean/Verif/Run.lean` | `Run α`: the set of possible outcomes of a computation (values and faults), as a monad; `Gives`: some outcome exists and all are good values |
| `lean/Verif/Spec/*.lean` | small specifications written without looking at the code (walks, distances, partitions, multisets, ...) |
| `lean/Verif/Model/*.lean` | the model, one definition per C++ function, each citing file and lines |
| `lean/Verif/Lemmas/*.lean` | helper lemmas and loop invariants |
| `lean/Verif/Props/*.lean` | the property theorems and, next to each, a concrete instance meeting its hypotheses |

## Modelling conventions

* **Undefined behaviour is an outcome.**  Every `v[i]`, iterator dereference, `front()` of a
  queue, `assert`, integer division is modelled in `Res α := Except Fault α`; reading outside a vector
  gives `Fault.outOfBounds`, a failed `assert` gives `Fault.assertFailed`, and so on.  A theorem that
  concludes `= .ok r` therefore also says that no undefined behaviour occurred.
* **Non-termination is an outcome.**  `while` loops are either structurally recursive functions or use the
  inductive big-step relation `Loop body s r`; a diverging loop is related to no `r`, so "`∃ r, Loop …`"
  is a termination claim (the relation is deterministic: `Loop.det`; `Props/Outcomes` spells this out for the ranges).
* **Concurrency is a transition relation.**  Parallel algorithms are modelled as a set of threads, each
  with its own program counter and local variables, whose atomic steps are interleaved arbitrarily.
* **`std::sort` is any function satisfying its contract** (a permutation, ordered by the comparator); no
  stability or determinism is assumed.  `std::map`, `std::vector`, `std::queue`, `std::priority_queue`
  are modelled by lists with the documented observable behaviour.
* **Integers.**  Ids, offsets, counts are `Nat`.  Where wrap-around is observable in the property
  (vertex cardinality, bit vectors, `ceil_log2`) the machine width is modelled.  Floating point
  is not modelled; where the code is generic in the scalar type, theorems are over an ordered field / semiring.
* **Templates.**  The model is polymorphic in the attribute type; a tuple of attributes is one type `α`.
  Columns of a struct-of-arrays that the code treats separately are separate lists in the model.

## Plan per property

| id | what is modelled | how it is proved |
|---|---|---|
| C01 | `EdgeList` state, open/close/push_back | induction over the push history |
| C02 | cardinality update with wrap-around at the width of `vertex_id` | induction; the wrap is a counterexample for the largest id, positive theorem `_partial` |
| C03 | byte-level writer/reader | round-trip: reader (writer x ++ rest) = (x, rest) |
| C04 | `std::equal` with three iterators | negation by witness (prefix), `_partial` for equal lengths |
| C05 | byte-level writer/reader with the object header bytes | round trip for 8-byte index, negation for the 4-byte one |
| C06, C07 | degrees, scan, zip, sort | counting lemma: slice of a key-sorted list at prefix sums of the key counts = filter by key |
| C08 | constructors, begin/end, dereference | negation for edge list constructors; positive for the others |
| C09 | threads of atomic increments | invariant: counter = number of executed increments |
| C10 | `upper_bound` on the offsets | order lemma on monotone offsets |
| C11 | loop of `triangularize_` | induction on rows |
| C12 | per-row sort of the target column only | positive for no attributes, negation with attributes |
| C13 | permute_by_degree, permute, relabel | negation by witness; `_partial` for involutive sort permutations |
| C14 | push_back/close | positive for non-decreasing in-range sources, negations otherwise |
| C15 | append loops | induction on the edge list |
| C16, C17 | `unique`, `remove_if`, swap loops | induction |
| C18 | perm_by_degree, relabel | permutation/inverse lemmas |
| C19, C20, C21 | association-list map, append loops | induction; negations for unknown labels and idx = 1 |
| C22, C54, C55 | queue loops | invariants (two-level queue frontier) and `Loop` termination measure |
| C23 | level-synchronous steps with arbitrary interleavings | invariant per level |
| C24, C25 | label-correcting loops | invariants: labels are path lengths; unrelaxed edges are queued |
| C26 | same, with the empty `end()` range | negation |
| C27, C28 | atomic steps of link/compress | invariant `comp[x] ≤ x`, connectivity preserved |
| C29, C30 | greedy loop, cyclic placement | induction; negation for the colouring |
| C31, C32, C33, C34 | merge loop, sums | induction, counting |
| C35, C36 | row loops with a map accumulator | finite sums in a semiring |
| C37, C38, C39, C65 | parent arrays | forest invariant; exchange argument for minimality |
| C40, C41 | BFS + back propagation | path counting recurrences |
| C42, C43 | verifier loops | equivalence with the specification |
| C44–C49 | arithmetic, threads, bit words | arithmetic, invariants |
| C50–C53 | ranges and split trees | partition of index sets |
| C56–C61 | iterator state machines | invariants or negation |
| C62, C63, C66–C68 | text reader/writer | round trip on character lists |
| C69 | `dag_based_mis` over the `dag_range` model | the orientation is acyclic; induction over the topologically ordered edges |
| C70 | `tbbworklist_range2` | invariant: everything still queued has at least the level of the bucket being processed |
| C71 | `page_rank` as interleaved tasks over shared scores and contributions, exact rationals | existence by injectivity of a linear map; contraction in the weighted maximum norm holds for any mixture of old and new contributions; lexicographic measure |
| C72 | constructor, inner iterator and `get_back_edge` over a graph with properties | invariant of the three maps: sound entries, paired references; lexicographic loop invariant for the first parallel edge |
| C73 | the filtered search with its iterator, the two loops along the path, the iterations | network invariant (extra edges stay empty), discovery order of the search, augmentation lemma, cut argument |
| C74 | the three phases of a round with trees, timestamps, distances and queues; a loop whose body contains loops (`RunLoop`) | invariant of the two trees (parents closer to the root in timestamp and distance order), residual balance, lexicographic measure for the adoption; concrete outcomes by a verified evaluator (`BkSim`) |
| C75, C76, C77 | iterators as state machines (`Iter`), nested loops (`RunLoop`) for `dijkstra_er` | queue invariant `Fifo.Inv`; for C76 an invariant that the queue is never empty between increments, with a measure on colours; cyclic-order invariant for C77 |
| C78 | filling of the stub arrays with bounds, shuffles as arbitrary permutations | induction over the sequence: exact condition for the overrun |
| C79 | the iterator with uninitialised members, positions in the flat array | loop invariant for k <= 0; for every k, the invariant that the degrees are the in-degrees less the reported ends, which makes the number exact; concrete runs for the negation |
| C80 | all versions over rows or compressed arrays; `parallel_reduce` over every split tree with stolen or continued parts, `for_each` with atomic additions in every order | each version reduced to the same sum over the rows, then C31 |
| C81 | bipartite lists as in C02, then the fill of the compressed arrays for one part | the counting sort of C06 with keys of one part; duality by counting; iteration and undirected lists refuted |
| C82 | text as in C62; bipartite lists and adjacencies as in C81 | the loop pushes the described entries; writer output described; rejected and wrong cases refuted |
| C83 | one task per edge of the frontier with the atomic steps of each version; bottom-up tasks as in C23 | invariant of a round under any interleaving (every marked vertex has a claimant that finishes its writes), induction on levels |
| C84 | tasks of C23, with a queue for each thread, the thread being chosen at each push, and `flush` copying the queues in any order | the round invariants of C23; `flush` gives the concatenation for every order; induction on levels |
| C85 | tasks of atomic reads, writes and compare-and-swaps on `comp`; an algorithm is a list of parallel loops | the forest invariant of the released `afforest`, with `pull` added: parents never exceed children and trees stay within components; each loop then joins the edges it visits |
| C86 | tasks of single reads and writes on `comp` and `change`; the sequential compression step by step; the division of the edges is a parameter | trees are stars when an iteration begins, so an iteration either loses a root or leaves all edges within trees; roots cannot run out before the bound on iterations |
| C87 | tasks of atomic reads, compare-and-swaps, bit operations and pushes to per-thread lists; rounds with `flush` of C84 | every edge is settled, or its source is marked for the next round, or some task has yet to look at it; the sum of the labels decreases or the round is the last |
| C88 | tasks of atomic steps; for the search-based one, the vertex loop over the `bfs_edge_range3` of C75 | every pointer stays in its component; it ends because a compare-and-swap that fails with cause is paid for by one that succeeds; the refutations are single runs |
| C89 | the search, the buckets and the way back with checked arrays; "not a number" as a value | the search simulates that of C40; the way back solves the recursion of C41 layer by layer |
| C90 | tasks in blocks: what may run now, and what waits for it; the frontier is cut arbitrarily | every step is a step of the unconstrained scheduler of C64 with the same unfinished tasks (a simulation up to permutation), so its theorems carry over |
| C91 | threads with queues of vertices; the contributions are computed at the beginning of a round or with the score | every step is a (possibly empty) sequence of steps of the loop of C71 followed by one step (`SimPlus`), so the theorem of C71 carries over |
| C92 | the loop of C91 with one thread, started with zero contributions | the first round by an invariant of its own (every contribution is right up to the relative error 1; vertex 0 reads only zeros), the others by the simulation of C91 |
| C93 | the tasks of C91 with a test on the contribution; the residual loops in order | v12: contributions stay above (below) the threshold; v3, v13: what is missing from n times the PageRank dominates the residual plus d times what arrives of it, hence is not negative, and shrinks by d per round |
| C94 | the loop over the phases with the lists `S[phase]`, the way back | the invariants of C40, with the vertices of a phase in any order; the way back is that of C40 on the same arrays |
| C95 | as C94, with phase 0 visited on the way back | as C94 without leaving out the source |
| C96 | the forward tasks (claim, enqueue, test the level, count, mark) and the backward tasks of C41, the sources one after another (`Serial`) | an invariant on the tasks of a round; the backward invariant of C41; the sequential program has a subset of the schedules of the team of C41 |
| C97 | tasks for the edges of a level (test, claim, enqueue, count, load, load, store, link) and for the vertices of a level on the way back | an invariant on the tasks of a round; with at most one shortest path only one task raises a count; the failing run is replayed by the kernel (`follow`) |
| C98 | the columns and every program over their iterators, against the same program on an array of tuples (`Spec/Program`) | induction on the program |
| C99 | the sorting helpers over the contracts of `std::sort` and `std::stable_sort` | from the contracts; `uniq` by C16, for sorting by target after exchanging the endpoints |
| C100 | the loops over the roots and over the `dag_range`, with the counters | an invariant: of the counters of a vertex that is not coloured yet only the first can be different from zero; C61 for the order of the range |
| C101 | the loop of `UnionBySplicing` over the array of parents | induction on how far the two positions are from the end; positions below both arguments are not changed any more |
| C102 | the map from entries to labels | invariant of the loop that fills the map |
| C103 | `fgets`, `sscanf`, `strtol` and the search for the begin of a line on lists of characters | the positions a range can begin at are begins of lines; a monotone guess gives monotone begins; each range visits the lines between two begins |
| C104 | the loop over the values of the generator | induction over the number of sources; the values kept so far are those among the first values that have an incoming edge |
| C105 | the first word of the file decides | the first word of a serialised list is `NW`, that of a Matrix Market file is `%%MatrixMarket` |
| C106 | the two work lists, the nodes and the guarded updates | the queue of edges is the rest of the edges of the present vertex followed by all edges of the waiting vertices, so that each item is a step of the search of Brandes; on the way back a vertex enters the list when all its successors have been handled |
| C107 | the work list, the steps of the threads, the treatment of an item under the locks, the way back | an invariant in which every edge with an enabled guard is in the work list, in a thread or lost, and a lexicographic measure (sum of levels, missing predecessors, path counts by level); when nothing is enabled the nodes are exact. On the way back: the part of each dependency that has been added, as a ghost relation |
| C108 | buckets, the treatment of an item, the rounds, the interleaved way back | a closed form of the nodes after any set of edges of the current level has been treated, so the order does not matter; on the way back an invariant over all interleavings with the part of each dependency added so far as a ghost relation: every lock that a thread waits for is free, nothing is lost |
| C109 | the steps from the edge list to the rows, the verifier, the dispatch on the version | the theorems on relabelling (C18), sorting (C99), `push_back_fill` (C15) and the versions of triangle counting (C32, C80) composed: the rows are the upper or lower triangle of the renamed simple graph; a renaming is a bijection between the triangles |
| C110 | the benchmark's `dijkstra` with a heap that hands out any entry, `std::equal` without an end, the indices of the sources | labels are weights of paths, everything not in the heap is relaxed, the sum of the labels falls; the result is unique, so comparing with it decides correctness |
| C111 | `reader`, `print_top_n` with the unordered map as a list in any order, the versions by their own models (C28, C85, C86, C87), `CCVerifier` (C43) | the options keep the relation "joined, whichever end comes first" up to a renaming; the counts of the labels are the sizes of the components; renaming permutes the labels |
| C112 | the rows as lists that grow, `num_edges_` as an optional number | induction on the pushes; the constructor from an edge list is a sequence of pushes |
| C113 | an iterator is a bit vector and the identity of its object | arithmetic of bit vectors; the laws are a small separate structure, `Spec.Positions` |
| C114 | The benchmark as a run over all trials, composed of the models of the searches (C22, C23, C42, C83, C84) and of the construction of the graphs | Composition of their theorems over the plan of trials; negations on the one-edge file |
| C115 | The benchmark in the style of C71 (a property of the reports that holds under every schedule), composed of the models of the PageRank versions and of the construction of the graph and degrees | The rows and degrees are those of the edges of the file; composition of C71, C91, C92 over trials and pairs; negations from C93 |
| C116 | The benchmark as a run that may end in any way its parts allow, composed of the models of the betweenness versions, of the verifier and of the construction of the graph | The rows are the in-edges of the file; betweenness depends only on the multisets of neighbours, and over all sources it is invariant under turning every edge round (paths correspond by reversal); composition over trials |
| C117 | A caller that performs any list of finds and joins with the operations that work; the reading functions in the style of `Model/DisjointSet` | Invariant over the history: two elements have the same root exactly if the joined pairs connect them, and (by size) every root stores the size of its set; loop invariants for the reading functions |
| C118 | The two conversions on top of the models of `read_mm` and `serialize`, loaded with `loadGraph` | The lists that `read_mm` returns are determined by the file; reading the first columns of a struct of arrays with more columns |
| C119 | The tool on top of the models of `read_mm_vector`, the build and `build_random_sources` | The in-degrees of the transposed adjacency are the out-degrees of the edges; counting in the loop |
| C120 | Threads with a read step and a compare-and-swap step (or lock, read, write, unlock), interleaved arbitrarily | Invariant: the value is the fold of the updates done, in the order of the successful swaps |
| C121 | A map from configurations to lists of samples, and the lines printed | Induction over the recorded samples |
| C122 | Arrays as bytes with a layout of tuples | Lists of bytes |
| C123 | A fold with checked accesses | Induction over the input |
| C124 | Dictionaries, the lists of edges, the adjacencies built with arbitrary oracles, the search and the loop that prints | The graph that is searched has an edge exactly for each pair in a common cast; walks are links; C55 for the search |
| C125 | The loop with a map of counts, the critical sections in arbitrary order | Invariant: the map holds the counts in order; the counts are what two rows share |
| C126 | Strings as lists of characters with find and substr | Induction over the text before the match |
| C127 | Each way to write the loop, for an arbitrary statement | Each is shown equal to one fold over the list of edges; positions are tallied separately |
| C128 | A relation with a load and a store for each thread | Invariant: what is left to do gives the result, threads concern different positions, loaded values are still there |
| C129 | The two loops | Invariants about marks, queue and stack; a lexicographic measure for the depth-first loop |
| C130 | Two streams that keep what is written; each function writes where the code writes | The text is a concatenation of lines; `words` of each line is computed |
| C131 | `trim` with positions as in the code, pushes, assignment | `trim` is shown equal to dropping blanks at both ends |
| C132 | The iterator with its stack, its colours and the rest of the current row | Invariant: the stack is the path to the current vertex; every vertex reached and not on it has no neighbour left; induction on the vertices not reached |
| C133 | The two times of a timer; the default format of a stream for whole numbers | Induction on the history; arithmetic of division and of decimal digits |
| C134 | The functions on four characters; `fgets` and `sscanf` as in `Model/MmFile` | Reading words; cases on the letters |
| C135 | The operations as functions on the columns of `Model/Zip` | The columns are those of a list of tuples, by induction on the calls |
| C136 | Objects with their two members, memory as a map from addresses to arrays, operations statement by statement | Each array belongs to one object; invariants over the operations |
| C137 | A line as columns with widths; a file system of directories and contents | The words of padded columns, by induction on the columns |
| C138 | The six variants with the distances and the queue they share, as a run; the queue hands out any entry | Labels are weights of walks and everything outside the queue is relaxed; walks can be shortened below the number of vertices (pigeonhole), which bounds the labels from below, so their sum falls; around a negative cycle the relaxed labels would contradict each other |
| C139 | The order of the rows and the way to form a sum are choices of a run | Every row is added to its own position once; a sum of a commutative monoid in any order and with any brackets is the sum |
| C140 | The overlaps and the search are those of C124; the maps are searched for the newest entry | The graph links two rows of names if credits of theirs have the same entry of the map; the map is injective on listed movies and 0 on all else |
| C141 | Positions are integers, so that a function may lead before the vector | Induction on the number of steps left; an injective map of a finite range to itself is a permutation |
| C142 | The threads are at a point of their call; any of them makes the next access | Invariant: entries of elements that were not roots lead to elements nearer to their old root, roots are negative until the call that hangs them under another ends. Lexicographic measure, since a failed compare-and-swap is repeated. Two runs as counterexamples |
| C143 | One task per vertex; any of them takes the next step | Invariant: the counter is less than the number of tasks that have raised it; lexicographic measure, since the number of pairs is known only after the search. The schedule in which all tasks raise the counter first; the loop in order as a schedule |
| C144 | The model of C24 and C25, whose sums wrap around | Every relaxation lowers the sum of the entries, with or without overflow; entries are congruent to weights of walks; for the parallel overload as an invariant of every schedule, with the order of C64 for the end. One graph as counterexample |
| C145 | Integer weights; the loop of `dijkstra` is the one of C138; the number of a bin is converted to `size_t` | The invariant of C138. `delta_stepping` without negative weights by simulation of the unsigned model (C25). The first relaxation, computed for every graph; one run as second counterexample |
| C146 | The reader of C03 stops at the first read that comes short; a second model goes on, as the code does | A property of readers that composes: on a beginning of a stream they come short or do the same. A run of the second model as counterexample; the two models agree where no read comes short |

## Trusted base

* Lean 4.33.0's kernel, and the Lean elaborator only as far as it produces the statements that are read.
* Axioms: at most `propext`, `Classical.choice` and `Quot.sound`.  `AXIOMS.md`, generated by `tools/axioms.py`, lists them per theorem.
  No axioms are added; there is no `sorry`, `admit`, `native_decide`, `bv_decide`, `implemented_by` or `unsafe`.
* The correspondence between the C++ text and the definitions in `lean/Verif/Model`.  It was made by reading; each definition cites the
  lines it models and states its simplifications.  The C++ code was neither compiled nor run.
* The semantics given to the C++ library: `std::vector` as a list with checked access, `std::sort` as any function meeting its contract,
  `std::queue`, `std::priority_queue`, `std::map`, `std::unordered_map` (any iteration order) as lists, `std::atomic` as sequentially
  consistent single steps, TBB loops as tasks interleaved arbitrarily.

## What is modelled

| model | code | theorems |
|---|---|---|
| `Model/EdgeList` | `edge_list.hpp`, `graph_base.hpp`, `containers/soa.hpp` | C01, C02, C04 |
| `Model/Binary` | `serialize`/`deserialize` of `soa.hpp`, `compressed.hpp`, `edge_list.hpp`, `adjacency.hpp` | C03, C05 |
| `Model/Csr`, `Model/CsrOps` | `containers/compressed.hpp`, `adjacency.hpp`, `build.hpp` (`fill`, degrees, sort) | C06–C14 |
| `Model/Build` | `build.hpp`, `vovos.hpp` | C15–C21 |
| `Model/Util` | `util/intersection_size.hpp`, `util.hpp`, `parallel_for.hpp`, `atomic.hpp`, `proxysort.hpp` | C33, C44–C46, C48, C49 |
| `Model/BitVector` | `util/AtomicBitVector.hpp` | C47 |
| `Model/Ranges` | `adaptors/` splittable, plain, neighbor, edge, cyclic, vertex ranges | C50–C53 |
| `Model/Bfs` | `algorithms/bfs.hpp` (sequential), `adaptors/bfs_range.hpp` (top-down), `adaptors/bfs_edge_range.hpp` | C22, C42, C54, C55 |
| `Model/Dobfs` | `algorithms/bfs.hpp` (direction optimizing, parallel) | C23 |
| `Model/Sssp`, `Model/DeltaPar` | `algorithms/dijkstra.hpp`, `algorithms/delta_stepping.hpp` | C24–C26, C64, C144 |
| `Model/Cc`, `Model/CcVerify` | `algorithms/connected_components.hpp` | C27, C28, C43 |
| `Model/Mis` | `algorithms/maximal_independent_set.hpp`, `algorithms/jones_plassmann_coloring.hpp` | C29, C30 |
| `Model/Triangle`, `Model/Jaccard` | `algorithms/triangle_count.hpp`, `algorithms/jaccard.hpp` | C31, C32, C34 |
| `Model/SpMat` | `algorithms/spMatspMat.hpp` | C35, C36 |
| `Model/Dsu` | `util/disjoint_set.hpp` (free functions), `algorithms/kruskal.hpp` | C37, C38 |
| `Model/DisjointSet` | `util/disjoint_set.hpp` (class; sequential members without splicing and atomics) | C39, C65 |
| `Model/Brandes` | `algorithms/betweenness_centrality.hpp`: sequential `brandes_bc` | C40 |
| `Model/BrandesPar`, `Team` | `algorithms/betweenness_centrality.hpp`: parallel `brandes_bc`, `exact_brandes_bc` | C41 |
| `Model/Worklist` | `adaptors/worklist.hpp`: `worklist_range`, `tbbworklist_range`, `tbbworklist_range2` (one thread) | C57, C58 |
| `Model/PathRanges` | `adaptors/reverse.hpp`: `reverse_path`; `adaptors/random_range.hpp`: `random_range` | C59, C60 |
| `Model/DagRange` | `adaptors/dag_range.hpp`: `dag_range` | C61 |
| `Model/DfsRange` | `adaptors/new_dfs_range.hpp`, `adaptors/dfs_range.hpp`: `dfs_range` | C56 |
| `Model/MatrixMarket` | `io/mmio.hpp`: `mm_fill` for edge lists, `read_mm`, `read_mm_vector` (integer fields), `is_mm`, `get_mm_symmetry`, `write_mm` for edge lists and adjacencies; printing and parsing of attribute values are parameters | C62, C63, C66–C68 |
| `Model/DagMis` | `algorithms/dag_based_mis.hpp`, on top of the models of `plain_degree_range`, `edge_range` and `dag_range` | C69 |
| `Model/PageRank` | `algorithms/page_rank.hpp` | C71 |
| `Model/BackEdge` | `adaptors/back_edge_range.hpp`, with `std::map` as an ordered list and references as locations | C72, C73 |
| `Model/MaxFlow` | `algorithms/max_flow.hpp`, `adaptors/filtered_bfs_range.hpp`, `adaptors/reverse.hpp`, over a `back_edge_range`, with exact numbers | C73 |
| `Model/BoykovKolmogorov` | `algorithms/boykov_kolmogorov.hpp`: start, growth, augmentation, adoption, over a `back_edge_range`, with exact numbers | C74 |
| `Model/BfsEdges` | `adaptors/bfs_edge_range.hpp`: `bfs_edge_range2`, `bfs_edge_range3`; `algorithms/dijkstra.hpp`: `dijkstra_er`; `adaptors/bfs_range.hpp`: `bottomup_bfs_range` | C75, C76, C77 |
| `Model/ConfigModel` | `generators/configuration_model.hpp`: `configuration_model` | C78 |
| `Model/KCore` | `algorithms/k_core.hpp`; `adaptors/new_dfs_range.hpp`: `dfs_edge_range`, over positions in the compressed arrays | C79 |
| `Model/TriangleExp` | `experimental/algorithms/triangle_count.hpp` (all but the code under `ONE_DIMENSIONAL_EDGE`); `util/parallel_for.hpp`: `parallel_reduce` over split ranges | C80 |
| `Model/BiAdjacency` | `adjacency.hpp`: `index_biadjacency`; `build.hpp`: `fill_biadjacency`, `degrees` and the fills for bipartite lists | C81 |
| `Model/BiMatrixMarket` | `io/mmio.hpp`: `mm_fill` for bipartite lists, `read_mm` with an edge list type, `write_mm` for `biadjacency` | C82 |
| `Model/BfsExp` | `experimental/algorithms/bfs.hpp`: `bfs_v6` to `bfs_v9`, `bfs_top_down`, `bfs_top_down_bitmap`, `bfs_bottom_up` | C83 |
| `Model/BfsDirExp` | `experimental/algorithms/bfs.hpp`: `bfs_v1`, `bfs_v2`, `BU_step`, `TD_step`, `queue_to_bitmap`, `bitmap_to_queue`, `flush` | C84 |
| `Model/CcExp` | `experimental/algorithms/connected_components.hpp`: `hook`, `compress`, `push`, `link`, `pull`, `compute_connected_components_v2`, `ccv1`, `Afforest`, `ccv5` | C85 |
| `Model/SvExp` | `experimental/algorithms/connected_components.hpp`: `sv_v6`, `sv_v8`, `sv_v9` | C86 |
| `Model/LpExp` | `experimental/algorithms/connected_components.hpp`: `writeMin`, `lpcc`, `lpcc_cyclic` | C87 |
| `Model/CcV1Exp`, `Model/BfsCc` | `experimental/algorithms/connected_components.hpp`: `compute_connected_components_v1`, `compute_connected_components` (in order) | C88 |
| `Model/BcVerify` | `algorithms/betweenness_centrality.hpp`: `BCVerifier` | C89 |
| `Model/DeltaExp` | `experimental/algorithms/delta_stepping.hpp`: all five versions | C90 |
| `Model/PageRankExp` | `experimental/algorithms/page_rank.hpp`: all versions | C91-C93 |
| `Model/BcExp` | experimental `approx_betweenness_brandes`, `bc2_v0`, `bc2_v1` | C94, C95 |
| `Model/BcExpPar` | experimental `bc2_v3`, `bc2_v4`, every interleaving of the atomic steps of their tasks | C96 |
| `Model/BcRace` | experimental `bc2_v2`, every interleaving of the steps of the tasks of the edges, loads and stores of the path counts separate | C97 |
| `Model/Zip` | `struct_of_arrays` and `zipped` as ranges, `swap` of tuples of references, algorithms as trees of reads, assignments and swaps | C98 |
| `Model/SortBy` | build.hpp `sort_by` and its variants, `permute`, `degrees(graph)`, `swap_to_triangular` with a value known at run time | C99 |
| `Model/JonesExp` | experimental `jones_plassmann_coloring2` | C100 |
| `Model/Splice` | `disjoint_set::reset(index)`, `UnionBySplicing`, `getCompactDisjSets()` | C101, C102 |
| `Model/MmFile` | `io/MatrixMarketFile.hpp` (constructor, `at`, `edges`, the iterator) and `io/mmio_nist.h` (`mm_read_banner`, `mm_read_mtx_crd_size`) on the text of the file; `mmap` is the text, the product in `double` is a parameter that has to be monotone and in range | C103 |
| `Model/Bench` | `bench/common.hpp`: `build_degrees`, `build_random_sources` (the random numbers are an arbitrary sequence), `load_graph`, `load_sources_from_file` | C104, C105 |
| `Model/BcWork` | `experimental/algorithms/betweenness_centrality.hpp`: `approx_betweenness_worklist_serial` (all guarded updates; the order in which sets are visited is arbitrary) | C106 |
| `Model/BcAsync` | `experimental/algorithms/betweenness_centrality.hpp`: `approx_betweenness_worklist`, `adaptors/worklist.hpp` iteration (threads take, test, treat and push items; any item may be taken next) | C107 |
| `Model/BcNoAbs` | `experimental/algorithms/betweenness_centrality.hpp`: `approx_betweenness_worklist_noabstraction` 619-1125 (the rounds over the buckets with any order of the items of a parallel round, the threads of the way back with buffers and locks; 849-982 is dead code) | C108 |
| `Model/TcBench` | `bench/tc.cpp`: `tc_relabel` to `TCVerifier` 60-127 and what `main` does with an edge list 216-318 (not the options, logs, timers; not version 11) | C109 |
| `Model/SsspBench` | `bench/sssp.cpp`: `dijkstra`, `SSSPVerifier`, versions 0 and 13, the choice of the sources (not the options, timers, messages; not negative weights) | C110 |
| `Model/CcBench` | `bench/cc.cpp`: `print_top_n`, the reader with `--relabel` and `--clean`, the dispatch on the version, the call of `CCVerifier` (not the options, timers, messages; counters that overflow) | C111 |
| `Model/AdjList` | `vovos.hpp`, `volos.hpp`, `vofos.hpp`: the constructors, `push_back`, `num_vertices`, `num_edges` (not the iterators, which are those of the C++ library) | C112 |
| `Model/Iterators` | `soa_iterator` in `containers/soa.hpp` and `containers/zip.hpp`, `my_outer_iterator` in `containers/compressed.hpp` (not `it++`, `it--`, which do not compile, nor `->`) | C113 |
| `Model/BfsBench` | bench/bfs.cpp: the two graphs, the dispatch on the version, the trials, the verification | C114 |
| `Model/PrBench` | bench/pr.cpp: the graph and the degrees, the dispatch on the version, the trials, `print_n_ranks` | C115 |
| `Model/BcBench` | bench/bc.cpp: the graph, the dispatch on the version, the groups of sources, the trials, the verifier | C116 |
| `Model/DsetOut` | util/disjoint_set.hpp: the functions that read the sets, move elements and reset; `unionBySizeAtomic` with one thread | C117 |
| `Model/Tools` | bench/ProcessEdgelist.cpp and bench/SourceVerifier.cpp without the options | C118, C119 |
| `Model/Shared` | disjoint_set.hpp 567-593, the counting output iterators of util.hpp and util_par.hpp, as threads | C120 |
| `Model/Times` | class Times of bench/common.hpp | C121 |
| `Model/Aos` | push_back, ==, serialize, deserialize of aos.hpp; histogram of util.hpp | C122, C123 |
| `Model/Oracle` | oracle.cpp 38-53, 89-219; the loops of dblp.cpp and oracle+dblp.cpp that differ; dns.cpp 36-86 | C124, C125, C126 |
| `Model/Apb` | apb/spmv.cpp 44-215, plain.cpp 172-492, tbb.cpp 35-255 without the parts under `#if 0`, containers.cpp 96-172, bfs.cpp 36-275, dfs.cpp 33-168: what is timed | C127, C128, C129 |
| `Model/Stream` | edge_list.hpp 235-254, compressed.hpp 291-301, 526-548, aos.hpp 84-98, util/provenance.hpp | C130, C131 |
| `Model/DfsEdges` | dfs_range.hpp 122-201 | C132 |
| `Model/Timer` | util/timer.hpp; times are whole numbers of ticks (not the rounding of a `double` from 2^53 on, nor flags set on the stream) | C133 |
| `Model/TypeCode` | io/mmio_nist.h: the type code as four characters, 44-52, 129-182, 184-267, 299-326 | C134 |
| `Model/Soa` | containers/soa.hpp: the constructors and the operations that change the columns, 176-189, 227-269 | C135 |
| `Model/BitOwner` | util/AtomicBitVector.hpp: objects and the memory they own, 48-78, 97-125 | C136 |
| `Model/BenchLog` | bench/Log.hpp: 39-185; the printed values of a sample, the date and the results of the git commands are inputs | C137 |
| `Model/ApbDijkstra` | apb/dijkstra.cpp: 50-275, with weights that are integers of any sign (not the options, the times, the rounding of doubles) | C138 |
| `Model/ApbExec` | apb/exec.cpp: 28-109 (not the options and times; the treatment of one row is one step) | C139 |
| `Model/Imdb` | examples/imdb/imdb.cpp: 35-191 (not reading the files, the times, or the lines printed at 86-90) | C140 |
| `Model/PermIter` | util/permutation_iterator.hpp: 23-50 (`difference_type` does not overflow) | C141 |
| `Model/DsetPar` | util/disjoint_set.hpp: 182-210 and 372-410 with 586-592, called by several threads, one step per access to `sets_`; sequentially consistent memory, no overflow, without the output | C142 |
| `Model/BfsCcPar` | `experimental/algorithms/connected_components.hpp`: 70-90 with one task per vertex, one step per access to the labels or the counter; a search, which only reads the graph, is one step | C143 |
| `Model/SsspSigned` | dijkstra.hpp: 77-115; delta_stepping.hpp: 109-156; both with a signed distance type and exact sums | C145 |
| `Model/BinaryShort` | edge_list.hpp: 215-228; compressed.hpp: 321-334; soa.hpp: 280-287, 302-309; graph_base.hpp: 81-86, 117-124; the reads unchecked, as in the code | C146 |
| `Spec/Signed` | Walks with signed weights, least weights, negative cycles | C138 |
| `Spec/EdgeBetweenness` | Betweenness of a list of edges, and scores divided by the largest | C116 |
| `Spec/PageRankEdges` | PageRank of a list of edges | C115 |

## What is not modelled

* Weak memory: all atomics are sequentially consistent, and plain accesses that the code lets race (parents in `dobfs`) are taken as atomic.
* Floating point, allocation failure, exceptions thrown by user callbacks, output to streams (except the serialised bytes).
* Template metaprogramming, concepts, `tag_invoke` dispatch, iterator category boilerplate, demangling, the graphs shipped as data.
* Code of the library that no property above mentions (see the table for what is covered); of the `experimental` directory only what the table lists.

## Disagreements between the code and the properties

For each of these a theorem proves that the code does not do what the property says, and a `_partial` theorem proves the part that holds.

| property | what the code does |
|---|---|
| C02 | the vertex count wraps to 0 when the largest id of the type is used |
| C04 | `operator==` compares a prefix only |
| C05 | with a 4-byte index type `deserialize` overwrites memory behind the member |
| C08 | an adjacency built from an edge list has one row too many; dereferencing its last outer position reads out of bounds |
| C11 | `triangularize` reads past the end on structures built from edge lists |
| C12 | sorting a row moves the targets but not the attributes |
| C13 | relabelling by degree applies the inverse permutation |
| C14 | `push_back` on a compressed graph needs non-decreasing, gap-limited sources |
| C19 | labels that were never seen map to vertex 0 |
| C20 | `make_bipartite_graph<1>` sizes its result by the other part |
| C24 | distances above the maximum of the vertex type are reported as unreachable |
| C26 | `delta_stepping_m1` relaxes no edge |
| C28 | `afforest` runs over `size() + 1` vertices and reads outside the graph |
| C30 | the colouring colours one maximal independent set and leaves the other vertices uncoloured |
| C34 | the documentation says that `jaccard_similarity` returns a score; it returns the number of edges scored |
| C41 | the parallel routine adds to a source the number of vertices it reaches; with an integral counting type the quotients of path counts are rounded down; the empty graph is read out of bounds |
| C40 | normalised scores are NaN when no vertex lies between two others; the empty graph with normalisation dereferences the end iterator |
| C38 | `kruskal` allocates one set per edge instead of one per vertex and reads out of bounds on sparse input |
| C39 | `disjoint_set::find` ignores its argument, so `unionBySize`, `unionByHeight` never join anything; the range checks accept one id too many |
| C43 | `CCVerifier` always returns false |
| C44 | `pow2` fails its assertion for 2^62 < n ≤ 2^63 |
| C46 | `parallel_reduce` uses the initial value more than once |
| C49 | `proxysort` of an empty range |
| C50 | the number of cycles exceeds the documented bound |
| C51 | a splittable range with cutoff 0 splits forever |
| C52 | splitting a `vertex_range` duplicates it |
| C55 | `bfs_edge_range` reads out of bounds on a seed without neighbours |
| C56 | a loop over `dfs_range` never ends normally: it reads `colors[size]`, or delivers a vertex without out-edges forever; vertex 0 is never a restart point |
| C58 | `tbbworklist_range` and `tbbworklist_range2` never deliver the last item |
| C59 | `reverse_path` with `start = stop` delivers `start`; iterating a range twice delivers nothing the second time |
| C61 | `dag_range` takes the front of an empty queue when there is no root |
| C62 | a blank line before the sizes ends the comment loop of `read_mm`; uninitialised sizes are used |
| C63 | `write_mm` writes an undirected list twice in the default format; reading it back doubles every edge |
| C67 | `write_mm` of an `adjacency(el)` reads out of bounds; of an `adjacency<1>` it writes zero-based ids |
| C68 | `read_mm_vector` subtracts one from every value |
| C64 | the parallel `delta_stepping` reads an uninitialised flag |
| C69 | `dag_based_mis` never marks a vertex that has an earlier neighbour, so its out parameter must be passed with every vertex marked; empty queue read for the empty graph and for a lone loop |
| C71 | `page_rank` divides by the degree of every vertex, so a vertex without links gives an infinite contribution; the contributions are read and written concurrently without synchronisation (a data race, modelled as atomic accesses) |
| C72 | an extra edge is stored as two independent copies, one found by `get_back_edge` and one delivered by the iteration |
| C73 | `max_flow` sends at most 100000 per iteration, so with the default limit a flow above 100100000 is cut off; the filtered search reads past the end if the source has no edge; source = sink dereferences null; flow on a second parallel arc cannot be taken back |
| C73 | `max_flow` takes `const Graph&`, but the member functions of `back_edge_range` it uses are not `const`, and its test is disabled in CMake; the model ignores `const` |
| C74 | `bk_maxflow` may return too small a number: when an orphan finds no parent, a neighbour of the source tree is reactivated if the capacity from the orphan to it is positive (boykov_kolmogorov.hpp:308-312), not towards the orphan, and conversely in the other tree |
| C74 | `bk_maxflow` over a graph whose edges have no opposite edges: `back_edge_range` stores an added edge in two maps, and flow booked on one copy is not seen through the other |
| C76 | `dijkstra_er` never returns: `bfs_edge_range2` evaluates `Q.top()` before `!Q.empty()` (bfs_edge_range.hpp:255), so the queue can only become empty through undefined behaviour; it also starts from vertex 0 whatever the source, and orders the queue by vertex before distance |
| C77 | `bottomup_bfs_range` yields all vertices, reachable or not, in the order of their numbers starting from the seed; when a vertex has neighbours but none was yielded before, the parent of the previous vertex is reported |
| C78 | `configuration_model` computes the end of each stub range as `begin + cursor` after moving the cursor (configuration_model.hpp:102-103): out of bounds as soon as a vertex other than the last has an edge; `contiguous_id_space` is ignored; `power_law_gen` does not compile |
| C79 | `k_core` makes a single pass over one component, and `dfs_edge_range` reads past the end of rows (new_dfs_range.hpp:162, 203, 226), reads `has_parent_` or `u_parent` uninitialised (174, 211, 224) and fails its assertion (199) (`k_core_faults_wrong`) |
| C81 | `index_biadjacency(el)` sizes its base with one vertex too many, so iterating over it reads out of bounds; for an undirected bipartite list the degree array has room for one part only and ids of the other are written out of bounds |
| C82 | `read_mm` for bipartite lists rejects square files, since it takes every square file for unipartite; it asks `is_unipartite` of the list type, which is never true; the template parameter of the list type follows a pack and cannot be named; `write_mm` for `biadjacency<1>` writes zero-based ids |
| C83 | `bfs_v4` does not compile (`q1(q2)`); `bfs_v8`, `bfs_v9` and `bfs_top_down` test and write in two steps without synchronisation, so a vertex may be enqueued several times (the result is still right if the accesses are atomic) |
| C84 | `bfs_v2` sets the frontier in `front(N, false)`, which is uninitialised memory, and never clears it: a stray bit makes an unreachable vertex a parent. `bfs_v1` and `bfs_v2` index `lqueue` by the thread number, so more threads than bins (32 by default) write outside it. `BU_step` goes through the `neighbor_range` of the transpose up to `end()`, which is one past the last vertex if it was built from an edge list (C53), and then reads past the end of the parents (`bfs_v2_end_faults`) |
| C85 | `ccv5` skips the vertices with the sampled label without looking at the edges that reach them from elsewhere: on 0→1, 0→2 it can return the labels 0, 1, 2 |
| C87 | `lpcc` and `lpcc_cyclic` index `frontier` by the thread number, so more threads than bins (32 by default) write outside it; on directed graphs labels only flow along edges |
| C88 | `compute_connected_components_v1` replaces the parent of a vertex that need not be a root, so links are lost, and runs a fixed number of rounds; `compute_connected_components` labels `target(A, e)` of a pair that has no index component, that is the tree parent, so leaves of the search tree keep no label and are searched again |
| C89 | `BCVerifier` does not leave out the source (as the parallel routine of C41), so it rejects the exact scores; the difference is stored in the counting type, so an integral one rounds it down; `0/0` after normalisation makes every comparison succeed |
| C90 | `delta_stepping_v6` compares and stores in separate unsynchronised steps: a worse distance can overwrite a better one; `v9`, `v10`, `v11` test an uninitialised `success` as the routine of C64 does |
| C93 | `page_rank_v12` compares contributions with the threshold for the total error: with the usual 1e-4 it ignores all links from 10000 vertices on. `page_rank_v3` and `page_rank_v13` start with residuals 1-d instead of (1-d)/n (they compute `base_score` and do not use it), so their scores are n times the PageRank |
| C95 | `bc2_v0` visits phase 0 on the way back (`while (phase-- > 0)`; `bc2_v1` has `while (--phase > 0)`), so it adds the dependency of a source on itself to its score |
| C96 | `bc2_v3` and `bc2_v4` add the dependency of a source on itself to its score; `bc2_v4` divides path counts in the counting type, and rounds if that is integral (the benchmark passes `double`) |
| C97 | `bc2_v2` raises `path_counts[w]` without synchronisation (a data race); an update can be lost |
| C98 | `soa_iterator::operator++(int)` and `--(int)` (soa.hpp, zip.hpp) pass the constructor arguments in the wrong order and do not compile when used |
| C98 | `size()` of a struct of arrays or zip is that of the first column; a shorter column is read past its end |
| C100 | `jones_plassmann_coloring2` gives every vertex the colour 0 on graphs stored in both directions |
| C101 | `UnionBySplicing` goes on from the new parent of an element instead of its old one, so that earlier unions are lost |
| C101 | `reset(index)` accepts the index one past the end |
| C103 | a blank line before the sizes makes the first entry appear twice, because `fscanf` leaves the position behind the third number and not at the next line |
| C103 | a comment line behind a line without sizes (blank, or the remainder of a comment of more than 1024 characters) makes `mm_read_mtx_crd_size` run forever |
| C103 | a last line without a newline, or a blank line at the end, makes the iterator go past the end of the mapping |
| C104 | `uniform_int_distribution(0, num_vertices(graph))` includes its upper end: `degrees[num_vertices]` is read out of bounds |
| C104 | `build_degrees` counts incoming edges, so that a chosen source may have no outgoing edge; without enough vertices with incoming edges the search never ends |
| C106 | `approx_betweenness_worklist_serial` keeps predecessors and successors in sets, so that parallel edges count once, unlike in all other versions |
| C107 | `approx_betweenness_worklist`: `++work` takes an item before `work != end()` tests whether the list is empty, so the last item is dropped; all scores from a source with one edge are 0 |
| C107 | `approx_betweenness_worklist` locks both ends of an edge: a loop (other than at 0) is a self-deadlock; an item (0, 0) is taken for the dummy; the level of a vertex is read without its lock |
| C108 | `approx_betweenness_worklist_noabstraction`: `while (buckets[top_level].empty() && top_level < buckets.size())` reads `buckets[buckets.size()]` at the end of every search |
| C108 | `approx_betweenness_worklist_noabstraction` does not reset `edge_l_s` between sources: with the sources 0, 0 the scores of the two middle vertices of a diamond come out as 1 and 1/3 |
| C108 | `approx_betweenness_worklist_noabstraction`: with a loop in a parallel round a thread locks the same vertex twice; `DELTA = 0` divides by zero; the lock of a vertex put into a buffer on the way back is never released (harmless: it is never taken again) |
| C109 | `tc --lower` with the default version (4) or 1, 5, 7, 8, 9, 12 reports 0 triangles for every graph: these versions want the upper triangle |
| C109 | `TCVerifier` lets `std::set_intersection` write through `intersection.begin()` of an empty vector that has only been reserved |
| C109 | `tc --relabel --heuristic`: `worth_relabeling` divides by the number of vertices, which may be 0 |
| C110 | `SSSPVerifier` rejects every correct result of `delta_stepping` for a graph with an unreachable vertex: its oracle uses `max()/4` for "not reached", the library `max()` |
| C110 | `SSSPVerifier` compares with the three-iterator `std::equal`: a shorter vector passes, a longer one is compared beyond the end of the oracle |
| C110 | `sssp` with `-r` or random sources and `-i` greater than 1 reads `sources[i * iterations + j]` beyond the end: there is only one source per trial |
| C111 | `cc` with version 0 or 7: `afforest` returns one label more than there are vertices and `print_top_n` counts it, so one component too many is reported |
| C111 | `cc` with version 10 or 11 on a file read with `-f`: label propagation runs along the edges only, and reports two components for the edge 1→0 |
| C111 | `cc --verify` reports a failure for every run of every version (see C43) |
| C112 | `num_edges()` of an `adj_list` or `adj_flist` made from a number of vertices reads an uninitialised variable; after a push it does not count the new edge |
| C112 | `push_back(0, 5)` gives a graph with one vertex whose neighbour 5 is not a vertex; a search reads out of bounds |
| C112 | `adj_flist` cannot be constructed from an edge list: `fill_adj_flist` is not defined |
| C113 | the difference of two iterators over the vertices of a graph has the width of the index type: with 2^31 vertices and the default type, `end() - begin()` is negative |
| C113 | `it++` and `it--` do not compile: the arguments of the constructor are exchanged (`soa.hpp`, `zip.hpp`), or the function is `const` (`compressed.hpp`) |
| C114 | bench/bfs.cpp:74-75 build `graph` from the columns (`build_adjacency<1>`) and `gx` from the rows, so the benchmark searches the reversed graph (`bench_searches_backwards`); an unknown version makes the verifier read an empty vector (`bench_unknown_version`); `-r` is not checked (`bench_source_not_a_vertex`); the result of `BFSVerifier` is dropped |
| C115 | bench/pr.cpp:46-52 `print_n_ranks` ignores `n` and always reads ten positions: out of bounds with fewer than ten vertices (`print_n_ranks_small`); version 0 is commented out, it and unknown versions report zeros (`bench_no_version`); versions 3 and 13 are not normalised (`bench_not_normalised`) |
| C116 | bench/bc.cpp:83 builds `build_adjacency<1>`, the transposed graph: with given sources, the scores are those of the reversed graph (`bench_backwards`); versions 0, 3, 4, 5, 8 count a source in its own score and the verifier accepts that (`bench_wrong_ranking`, `bench_ends_counted`); the verdict of the verifier is dropped (line 150); an unknown version returns an empty vector, which the verifier then reads out of bounds (`bench_unknown_version`) |
| C117 | disjoint_set.hpp:469-482 `getSubsets` reports one set with all elements (`get_subsets_one_set`); 488-506 `getCompactDisjSets(nsets)` labels every element that is not a representative like element 0 (`compact_sets_wrong`); 508-523 `getCompactDisjSets()` gives all sets of the same size one label (`compact_values_wrong`); 261-297 `join` does nothing (`join_noop`); 149-155 `reset(index)` makes the element its own parent, so that looking for its representative never ends (`reset_then_find_never_ends`), and accepts an index behind the end (`reset_out_of_bounds`); `combineBySize` does not count the sets (`set_number_never_changes`); 372-410 `unionBySizeAtomic` adds the sizes at one root and may link it under the other (`union_by_size_atomic_wrong_size`); 128-136 the copy constructor deletes an uninitialised pointer; 160-167 `allToSingletons(policy)` does not compile |
| - | bench/js.cpp is not modelled: it does not compile (`v_coefficients` is declared inside `#if 0` and used outside, `jaccard_similarity_v0` and `jaccard_similarity_v2` do not exist, experimental/algorithms/jaccard.hpp:50 lacks a comma) |
| C118 | common.hpp:79-101, edge_list.hpp `deserialize`: the directedness stored in the file is not used; a file converted with `-u` loads into benchmarks for directed graphs without the reversed edges of a symmetric file, and one converted with `-d` loads into benchmarks for undirected graphs with every edge twice (`converted_wrong_direction`) |
| C119 | SourceVerifier.cpp:58-59 as C105: `build_random_sources` may read out of bounds (`verify_sources_out_of_bounds`). bench/sssp.cpp:169, 188 draws its sources from the adjacency `<0>` (vertices that an edge enters), the checker from `<1>` (vertices that an edge leaves): for graphs that are not symmetric the checker can report sources that `sssp` itself has drawn |
| C122 | aos.hpp:81: `==` passes only one end to `std::equal`, so it ignores what the second array has beyond the first and reads out of bounds if the second is shorter (`aos_equal_wrong`); aos.hpp:82: `!=` takes a `storage_type` and does not compile when used; aos.hpp:118-126: the element size in the file is not compared with that of the array (`aos_smaller_type`, `aos_larger_type`) |
| C123 | util.hpp:134-139: the overload of `histogram` for tuples calls `std::get` with a run-time index and does not compile |
| C124 | oracle.cpp:195-215: for a name that is not linked the arrays still hold 0, so the number printed is 0 and the line printed names the first name and the first title (`oracle_unlinked_wrong`); a chosen name without links makes `bfs_edge_range` read past the end (`oracle_alone_out_of_bounds`); dblp.cpp:119-125 has no test `j > i`, so self loops enter the graph and the numbers can be one too large (`dblp_wrong`); oracle+dblp.cpp pushes into a list of edges that was closed (`oracle_dblp_asserts`) |
| C126 | oracle.cpp:44 tests `opening` where `closing` is meant, and `find("]]")` starts at the beginning of the text (`delink_no_close`, `delink_early_close`) |
| C127 | The adjacencies of the benchmarks are built from edge lists, so `end()` is one past the last vertex (see C50); all loops but those over the indices read out of bounds (`spmv_program`) |
| C128 | tbb.cpp:159 increments `degrees[target]` from several threads without synchronisation; increments can get lost (`parallel_in_degrees_wrong`) |
| C130 | `stream_edges(os)`, `stream(os)` and `stream_stats(os)` ignore `os` and write to `std::cout` (`stream_edges_ignores_stream`) |
| C130 | `stream()` of an adjacency built from an edge list reads out of bounds (`stream_built_wrong`); `stream_indices` without offsets does so too |
| C131 | `push_back(fn, str)` trims copies of its arguments and pushes the arguments (`provenance_parts_wrong`) |
| C131 | `operator=` of `provenance` appends (`provenance_assign_iff`); on itself it is undefined (`provenance_assign_self`) |
| C132 | `dfs_edge_range` starts on the first neighbour of the seed without looking whether there is one (`dfs_edges_isolated_wrong`) or whether it is the seed (`dfs_edges_loop_wrong`) |
| C132 | `dfs_edge_range` scans the row of a vertex before marking it, so that a vertex that is its own neighbour is entered twice and the assertion fails (`dfs_edges_later_loop_wrong`) |
| C133 | A timer that is started again and not stopped reports a negative time (`elapsed_restart_wrong`); so does one whose clock is set back, as it uses `system_clock` (`elapsed_clock_wrong`) |
| C133 | `os << t` prints a `double` with six digits: from a million units on different times print alike (`print_wrong`) |
| C134 | `mm_read_banner` writes words of 64 characters or more past its buffers (`read_banner_long_wrong`) |
| C134 | `mm_typecode_to_str` prints a pointer that was never set if the first letter is not M (`to_str_wrong`) |
| C134 | `mm_is_valid` accepts integer Hermitian matrices and unknown letters (`is_valid_hermitian_wrong`, `is_valid_unknown_wrong`) |
| C134 | `mm_read_mtx_array_size` never ends on a comment behind a blank line (`array_size_never_ends`) |
| C135 | `struct_of_arrays::copy` does not resize: fewer elements keep the old ones behind them, more are written past the end (`soa_copy_short_wrong`, `soa_copy_long_wrong`) |
| C135 | The constructors from columns accept columns of different lengths (`soa_columns_wrong`) |
| C136 | The move assignment of `AtomicBitVector` does not delete the array that it overwrites (`bit_vectors_leak_wrong`) |
| C137 | A branch name of ten characters or more runs into the revision, and without git the columns are shifted (`log_branch_wrong`, `log_git_wrong`) |
| C137 | The column Graph is cut at the first underscore (`log_graph_wrong`) |
| C137 | A host name of twenty characters or more is read past its array (`log_host_wrong`) |
| C137 | `create_directory` makes one directory only; otherwise there is no log (`log_directory_wrong`) |
| C138 | apb/dijkstra.cpp:202-204: the fourth variant prints no line (`apb_dijkstra_line_wrong`) |
| C138 | apb/dijkstra.cpp:74: the seed is not compared with the number of vertices (`apb_dijkstra_seed_wrong`) |
| C139 | apb/exec.cpp:82: the third variant reads beyond the last row (`exec_program_wrong`; the cause is that of C127) |
| C139 | apb/exec.cpp:81-87: the counter `k` is shared by all treatments of `std::for_each(exec1, ...)` (`exec_par_counter_wrong`) |
| C140 | examples/imdb/imdb.cpp:44, 99: `titles_map` holds movies only, and `titles_map[title]` makes row 0 of any other title (`imdb_not_movies_wrong`) |
| C142 | util/disjoint_set.hpp:372-410, on several threads: a root that another thread has just hung under its parent gets a size added to its parent entry, or its parent entry is added as a size: elements become their own parents or move to other sets (`concurrent_unions_never_found`, `concurrent_unions_wrong_sets`) |
| C143 | experimental/algorithms/connected_components.hpp:76-77 and 85: the counter is raised and read in separate steps, so tasks that run at the same time use the same label (`parallel_one_label`) |
| C144 | dijkstra.hpp:105-108 and delta_stepping.hpp:120-124: the sum is compared after it has wrapped around, so a walk that is too heavy for the type looks light (`weights_wrap_wrong`); the parallel overload at 187-190 likewise (`weights_wrap_parallel_wrong`) |
| C145 | delta_stepping.hpp:124-128: the number of the bin is negative for a negative distance, and a bin before the current one is never visited again (`delta_stepping_negative_wrong`, `delta_stepping_lost_wrong`) |
| C146 | edge_list.hpp:215-233, soa.hpp:280-309: the state of the stream is not examined after any read; a file that was cut short is loaded as a different graph (`edgelist_cut_short_wrong`, `edgelist_cut_tail_wrong`); compressed.hpp:321-334 likewise (`csr_cut_short_wrong`) |

## Reading seeded/LOG.jsonl

Each line is one edit of a definition in a scratch copy, followed by a full build. `failed` lists the declarations with an error.
An empty `failed` together with an empty `tightened` means that the edit survived.

Until late in the work the script did not look at the exit code of the build. A build whose prover was killed for lack of memory printed no
error that the script recognised, and was recorded as a survivor. One such record was found, for `SsspSigned.resize`; it is not in the log.
The script now reports such builds as crashed and records nothing. The eight earlier edits with an empty `failed` that could be repeated were
repeated with it; the lines with a `note` give the outcome. Five are caught by the present theorems, and three survive with a successful build.
Of the five, `BcWork.guardCn` and one edit of `Oracle.furthest` have nothing under `tightened` in their first line; whether that first build
crashed, or came before the theorem that now fails, is not known.
