import Verif.Model.Csr

/-!
# Model of `index_biadjacency` (adjacency.hpp) and of its construction from a bipartite edge list (build.hpp)
-/

namespace NW

namespace BiEdgeList
variable {α : Type}

/-- `std::get<idx>(el)` for `idx` 0 or 1. -/
def col (el : BiEdgeList α) (idx : Nat) : List Nat := if idx = 0 then el.col0 else el.col1

/-- `open_for_push_back`: edge_list.hpp:124-131. -/
def openForPushBack (el : BiEdgeList α) : BiEdgeList α := { el with isOpen := true }

/-- `close_for_push_back`: edge_list.hpp:133-141. -/
def closeForPushBack (el : BiEdgeList α) : BiEdgeList α := { el with isOpen := false }

/-- `degrees<d_idx>(el)` for bipartite lists: build.hpp:495-512.  `sched` is the order in which the atomic increments are executed; an undirected list gets zeros. -/
def degrees (sched : List Nat → List Nat) (directed : Bool) (dIdx : Nat) (el : BiEdgeList α) : Res (List Nat) :=
  if directed then vincrAll (List.replicate (el.numVertices dIdx) 0) (sched (el.col dIdx))
  else return List.replicate (el.numVertices dIdx) 0

end BiEdgeList

/-- `index_biadjacency<idx, ...>`: the two cardinalities of `bipartite_graph_base` and the `indexed_struct_of_arrays`: adjacency.hpp:204-206. -/
structure BiCsr (α : Type) where
  card0 : Nat
  card1 : Nat
  csr : Csr α
  deriving DecidableEq, Repr

namespace BiCsr
variable {α : Type}
open Csr (Oracles keyLt)

/-- `num_vertices(g, jdx)`: adjacency.hpp:274, 336-340. -/
def numVertices (g : BiCsr α) (jdx : Nat) : Nat := if jdx = 0 then g.card0 else g.card1

/-- `fill_directed<idx>(el, N, cs)` on a bipartite list: build.hpp:209-265 (the `#else` branch). -/
def fillDirected [Inhabited α] (sched : List Nat → List Nat) (srt : List (Nat × Nat × α) → List (Nat × Nat × α)) (directed : Bool) (idx : Nat)
    (el : BiEdgeList α) (n : Nat) (cs : Csr α) : Res (Csr α) := do
  let degree ← el.degrees sched directed idx
  let ind ← vset (vresize cs.indices (n + 1) 0) 0 0
  let ind ← vcopy ind 1 (inclusiveScan 0 degree)
  let tgt ← vcopy (vresize cs.tgt el.size 0) 0 (el.col ((idx + 1) % 2))
  let att ← vcopy (vresize cs.attrs el.size default) 0 el.attrs
  let z := srt ((el.col idx).zip (tgt.zip att))
  return { cs with indices := ind, tgt := z.map (·.2.1), attrs := z.map (·.2.2) }

/-- `fill_undirected<idx>(el, N, cs)` on a bipartite list: build.hpp:268-304.  The assertion names a type a bipartite list does not have, so this compiles only with assertions disabled. -/
def fillUndirected [Inhabited α] (srt : List (Nat × Nat × α) → List (Nat × Nat × α)) (idx : Nat)
    (el : BiEdgeList α) (n : Nat) (cs : Csr α) : Res (Csr α) := do
  let kdx := (idx + 1) % 2
  let tmp ← vcopy (List.replicate (2 * el.size) 0) 0 (el.col idx)
  let tmp ← vcopy tmp el.size (el.col kdx)
  let ind ← vset (vresize cs.indices (n + 1) 0) 0 0
  let degree ← vincrAll (List.replicate n 0) tmp
  let ind ← vcopy ind 1 (inclusiveScan 0 degree)
  let tgt ← vcopy (vresize cs.tgt tmp.length 0) 0 (el.col kdx)
  let tgt ← vcopy tgt el.size (el.col idx)
  let att ← vcopy (vresize cs.attrs tmp.length default) 0 el.attrs
  let att ← vcopy att el.size el.attrs
  let z := srt (tmp.zip (tgt.zip att))
  return { cs with indices := ind, tgt := z.map (·.2.1), attrs := z.map (·.2.2) }

/-- `fill_biadjacency<idx>(el, cs, sort_adjacency)`: build.hpp:371-383; `directed` is the directedness of the edge list's type. -/
def fill [Inhabited α] (o : Oracles α) (directed : Bool) (idx : Nat) (sort : Bool) (el : BiEdgeList α) (cs : Csr α) : Res (Csr α) := do
  let g ← if directed then fillDirected o.sched o.srt directed idx el (el.numVertices idx) cs else fillUndirected o.srt idx el (el.numVertices idx) cs
  if sort then g.sortToBeIndexed o.srtIds else return g

/-- `index_biadjacency(el, sort_biadjacency)`, and `make_biadjacency<idx>(el)`: adjacency.hpp:229-251, 302-305.  The base is sized one more than the vertices of the part. -/
def ofEdgeList [Inhabited α] (o : Oracles α) (directed : Bool) (idx : Nat) (sort : Bool) (el : BiEdgeList α) : Res (BiCsr α) := do
  let g ← fill o directed idx sort el (Csr.sized (el.numVertices idx + 1) 0)
  return ⟨el.numVertices idx, el.numVertices ((idx + 1) % 2), g⟩

/-- `index_biadjacency(N1, indices, first_to_be, rest_to_be...)`: adjacency.hpp:252-272. -/
def ofVectors (n1 : Nat) (indices tgt : List Nat) (attrs : List α) : BiCsr α := ⟨indices.length - 1, n1, Csr.ofVectors indices tgt attrs⟩

end BiCsr

end NW
