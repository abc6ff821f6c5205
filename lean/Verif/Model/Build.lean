import Verif.Model.CsrOps

/-! # Model of the helpers in build.hpp and of the vector-of-vectors graph (vovos.hpp) -/

namespace NW

/-! ## Vectors of vectors -/

/-- A graph as a vector of neighbour vectors; an entry is the target with the edge properties. -/
abbrev Vov (α : Type) := List (List (Nat × α))

namespace Vov
variable {α : Type}

/-- `adj[u].emplace_back(v, properties...)`: build.hpp:107. -/
def emplace (adj : Vov α) (u v : Nat) (a : α) : Res (Vov α) := do
  let r ← vget adj u
  vset adj u (r ++ [(v, a)])

/-- One iteration of the loop of `push_back_fill(edge_list, adj, directed, idx)`: build.hpp:105-117. -/
def fillStep (directed : Bool) (idx : Nat) (adj : Vov α) (e : Nat × Nat × α) : Res (Vov α) :=
  if idx = 0 then do
    let adj ← adj.emplace e.1 e.2.1 e.2.2
    if directed then return adj else adj.emplace e.2.1 e.1 e.2.2
  else do
    let adj ← adj.emplace e.2.1 e.1 e.2.2
    if directed then return adj else adj.emplace e.1 e.2.1 e.2.2

/-- `push_back_fill(edge_list, adj, directed, idx)`: build.hpp:101-118. -/
def fill (directed : Bool) (idx : Nat) (es : List (Nat × Nat × α)) (adj : Vov α) : Res (Vov α) :=
  es.foldlM (fillStep directed idx) adj

/-- `vector_of_vector_of_structs::push_back(i, attrs...)`: vovos.hpp:48-55. -/
def pushBack (adj : Vov α) (i v : Nat) (a : α) : Res (Vov α) :=
  emplace (adj ++ List.replicate (i + 1 - adj.length) []) i v a

/-- The loop body of `fill_adj_list`: build.hpp:126-134. -/
def adjListStep (directed : Bool) (st : Vov α × Nat) (e : Nat × Nat × α) : Res (Vov α × Nat) := do
  let adj ← st.1.pushBack e.1 e.2.1 e.2.2
  if directed then return (adj, st.2 + 1)
  else do
    let adj ← adj.pushBack e.2.1 e.1 e.2.2
    return (adj, st.2 + 2)

/-- `fill_adj_list(el, al)`: build.hpp:120-139; `directed` is the directedness of the edge list's type.  Opening and
closing a vector of vectors does nothing (vovos.hpp:46-47). -/
def fillAdjList (directed : Bool) (es : List (Nat × Nat × α)) (adj : Vov α) : Res (Vov α × Nat) :=
  es.foldlM (adjListStep directed) (adj, 0)

/-- `Graph G(n)`. -/
def empty (n : Nat) : Vov α := List.replicate n []

end Vov

/-! ## Edge list clean-up -/

namespace EdgeList
variable {α : Type}

/-- Write back a list of edges to the columns; the cardinality is untouched, as for `resize`, `std::swap` on tuple
references and assignments through references (soa.hpp:143-151, 263-265). -/
def withContents (el : EdgeList α) (es : List (Nat × Nat × α)) : EdgeList α :=
  { el with col0 := es.map (·.1), col1 := es.map (·.2.1), attrs := es.map (·.2.2) }

/-- The edges as tuples, what iterating over `el` shows. -/
def edges (el : EdgeList α) : List (Nat × Nat × α) := el.col0.zip (el.col1.zip el.attrs)

/-- The predicate of `uniq`: build.hpp:431. -/
def samePair (x y : Nat × Nat × α) : Bool := decide (x.1 = y.1 ∧ x.2.1 = y.2.1)

/-- `std::unique`: goes through the range, keeping an element when the predicate fails between the last kept element
and it. -/
def uniqueGo {β : Type} (p : β → β → Bool) (last : β) : List β → List β
  | [] => [last]
  | y :: ys => if p last y then uniqueGo p last ys else last :: uniqueGo p y ys

/-- `std::unique` from the start of the range. -/
def unique {β : Type} (p : β → β → Bool) : List β → List β
  | [] => []
  | x :: xs => uniqueGo p x xs

/-- `uniq(el)`: build.hpp:427-435. -/
def uniq (el : EdgeList α) : EdgeList α := el.withContents (unique samePair el.edges)

/-- `std::remove_if`: keeps the elements for which the predicate is false, in order. -/
def removeIf {β : Type} (p : β → Bool) : List β → List β
  | [] => []
  | x :: xs => if p x then removeIf p xs else x :: removeIf p xs

/-- `remove_self_loops(el)`: build.hpp:437-443. -/
def removeSelfLoops (el : EdgeList α) : EdgeList α :=
  el.withContents (removeIf (fun x => decide (x.1 = x.2.1)) el.edges)

/-- The loop body of `swap_to_triangular<idx, cessor>`: build.hpp:411-421. -/
def swapStep (idx : Nat) (c : Csr.Succession) (f : Nat × Nat × α) : Nat × Nat × α :=
  if (idx = 0 ∧ c = .predecessor) ∨ (idx = 1 ∧ c = .successor) then
    if f.1 < f.2.1 then (f.2.1, f.1, f.2.2) else f
  else if (idx = 0 ∧ c = .successor) ∨ (idx = 1 ∧ c = .predecessor) then
    if f.2.1 < f.1 then (f.2.1, f.1, f.2.2) else f
  else f

/-- `swap_to_triangular<idx, edge_list_t, cessor>(el)`: build.hpp:407-423.  Each element is changed by one
iteration of the parallel loop only. -/
def swapToTriangular (idx : Nat) (c : Csr.Succession) (el : EdgeList α) : EdgeList α :=
  el.withContents (el.edges.map (swapStep idx c))

/-- `perm_by_degree<idx>(el, degree, direction)`: build.hpp:521-542; an unknown direction leaves the identity. -/
def permByDegree (srt : (Nat → Nat → Bool) → List Nat → List Nat) (degree : List Nat) (d : Csr.Direction) : List Nat :=
  if d = .other then List.range degree.length
  else srt (Csr.degLt d fun a => (degree[a]?).getD 0) (List.range degree.length)

/-- `relabel(el, perm)`, unipartite: build.hpp:555-571.  The loop iterations write distinct entries of `iperm` when
`perm` is a permutation. -/
def relabel (perm : List Nat) (el : EdgeList α) : Res (EdgeList α × List Nat) := do
  let iperm ← Csr.invertPerm perm
  let es ← el.edges.mapM fun x => do
    let u ← vget iperm x.1
    let v ← vget iperm x.2.1
    return (u, v, x.2.2)
  return (el.withContents es, iperm)

/-- `relabel<idx>(el, perm)`, bipartite: build.hpp:585-598; only endpoint `idx` is renamed. -/
def relabelSide (idx : Nat) (perm : List Nat) (el : EdgeList α) : Res (EdgeList α × List Nat) := do
  let iperm ← Csr.invertPerm perm
  let es ← el.edges.mapM fun x => do
    if idx = 0 then
      let u ← vget iperm x.1
      return (u, x.2.1, x.2.2)
    else
      let v ← vget iperm x.2.1
      return (x.1, v, x.2.2)
  return (el.withContents es, iperm)

/-- `relabel_by_degree<idx>(el, direction, degree)`: build.hpp:609-646.  `given` is the degree array argument, empty by
default. -/
def relabelByDegree (sched : List Nat → List Nat) (srt : (Nat → Nat → Bool) → List Nat → List Nat) (directed : Bool)
    (idx : Nat) (d : Csr.Direction) (given : List Nat) (el : EdgeList α) : Res (EdgeList α × List Nat) := do
  let degree ← if given.length = 0 then el.degrees sched directed idx else .ok given
  el.relabel (permByDegree srt degree d)

end EdgeList

/-! ## Graphs from labelled data -/

namespace Labels
variable {L α : Type} [DecidableEq L]

/-- `make_index_map(range)`: build.hpp:651-660.  Later positions overwrite earlier ones; the map is
kept with the newest entry first. -/
def indexMap (vs : List L) : List (L × Nat) := vs.zipIdx.reverse

/-- `map[u]` on a `std::map<L, size_t>`: a missing key is inserted with value 0 (the insertion changes no other look-up,
so the map itself is not threaded through). -/
def lookup (m : List (L × Nat)) (l : L) : Nat :=
  match m.find? (fun p => decide (p.1 = l)) with
  | some p => p.2
  | none => 0

/-- `make_property_edges(map, edges)`: build.hpp:680-690; without properties, `make_plain_edges`, 665-675. -/
def propertyEdges (m : List (L × Nat)) (es : List (L × L × α)) : List (Nat × Nat × α) :=
  es.map fun e => (lookup m e.1, lookup m e.2.1, e.2.2)

/-- `make_index_edges(map, edges)`: build.hpp:695-709; the property is the position of the input edge. -/
def indexEdges (m : List (L × Nat)) (es : List (L × L × α)) : List (Nat × Nat × Nat) :=
  es.zipIdx.map fun p => (lookup m p.1.1, lookup m p.1.2.1, p.2)

/-- `make_property_graph(vertices, edges, directed, idx)`: build.hpp:744-756; without properties, `make_plain_graph`,
714-723. -/
def propertyGraph (vs : List L) (es : List (L × L × α)) (directed : Bool) (idx : Nat) : Res (Vov α) :=
  Vov.fill directed idx (propertyEdges (indexMap vs) es) (Vov.empty vs.length)

/-- `make_index_graph(vertices, edges, directed, idx)`: build.hpp:728-740. -/
def indexGraph (vs : List L) (es : List (L × L × α)) (directed : Bool) (idx : Nat) : Res (Vov Nat) :=
  Vov.fill directed idx (indexEdges (indexMap vs) es) (Vov.empty vs.length)

/-- `data_to_graph_edge_list(left, right, edges)`: build.hpp:761-778. -/
def bipartiteEdges (left right : List L) (es : List (L × L)) : List (Nat × Nat × Unit) :=
  es.map fun e => (lookup (indexMap left) e.1, lookup (indexMap right) e.2, ())

/-- `make_bipartite_graph<idx>(left, right, edges)` and `make_plain_bipartite_graph`: build.hpp:780-819.  The graph
is sized by the left vertices whatever `idx` is. -/
def bipartiteGraph (idx : Nat) (left right : List L) (es : List (L × L)) : Res (Vov Unit) :=
  Vov.fill true idx (bipartiteEdges left right es) (Vov.empty left.length)

/-- `make_bipartite_graphs(left, right, edges)` and `make_plain_bipartite_graphs`: build.hpp:793-834. -/
def bipartiteGraphs (left right : List L) (es : List (L × L)) : Res (Vov Unit × Vov Unit) := do
  let g ← Vov.fill true 0 (bipartiteEdges left right es) (Vov.empty left.length)
  let h ← Vov.fill true 1 (bipartiteEdges left right es) (Vov.empty right.length)
  return (g, h)

end Labels

/-! ## join -/

/-- The triples collected by `join` for one vertex `i` and one hyperedge entry `k` of `H[i]`: build.hpp:843-847. -/
def joinEntry {α β : Type} (G : Vov α) (i : Nat) (k : Nat × β) : Res (List (Nat × Nat × Nat)) := do
  let r ← vget G k.1
  return (r.filter fun j => decide (j.1 ≠ i)).map fun j => (i, j.1, k.1)

/-- `join(G, H)`: build.hpp:836-855. -/
def join {α β : Type} (G : Vov α) (H : Vov β) : Res (Vov Nat) := do
  let parts ← (List.range H.length).mapM fun i => do
    let row ← vget H i
    let ls ← row.mapM (joinEntry G i)
    return ls.flatten
  Vov.fill true 0 parts.flatten (Vov.empty H.length)

end NW
