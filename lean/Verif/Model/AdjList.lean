import Verif.Model.Build
import Verif.Model.Bfs

/-!
# Model of the adjacency lists that grow: volos.hpp (`adj_list`), vofos.hpp (`adj_flist`), vovos.hpp (`vov`)

A push does not look at `is_open`; opening and closing only set that flag, and it is left out.
`index_adj_flist(edge_list&)` calls `fill_adj_flist`, which is defined nowhere; that constructor cannot be instantiated and is not modelled.
-/

namespace NW.AdjList

/-- The three containers. -/
inductive Kind
  /-- `vector<vector<tuple>>`: vovos.hpp. -/
  | vov
  /-- `vector<list<tuple>>`: volos.hpp. -/
  | list
  /-- `vector<forward_list<tuple>>`: vofos.hpp. -/
  | flist
  deriving DecidableEq

/-- The state: the rows and `num_edges_`, `none` until something is assigned to it: volos.hpp:47-88, vofos.hpp:47-88, vovos.hpp:32-83. -/
structure Graph (α : Type) where
  rows : Vov α
  numEdges : Option Nat

variable {α : Type}

/-- The constructors from a number of vertices; `num_edges_` is not initialised: volos.hpp:56, vofos.hpp:56, vovos.hpp:75. -/
def ofSize (n : Nat) : Graph α := ⟨Vov.empty n, none⟩

/-- The rows after `base::emplace_back()` has been called until row `i` exists: volos.hpp:75-79, vofos.hpp:75-79, vovos.hpp:49-53. -/
def grow (rows : Vov α) (i : Nat) : Vov α := rows ++ List.replicate (i + 1 - rows.length) []

/-- `emplace_back` or `emplace_front`: volos.hpp:80, vovos.hpp:54; vofos.hpp:80. -/
def put (k : Kind) (r : List (Nat × α)) (x : Nat × α) : List (Nat × α) :=
  match k with
  | .flist => x :: r
  | _ => r ++ [x]

/-- `push_back(i, j, attrs...)`: volos.hpp:74-81, vofos.hpp:74-81, vovos.hpp:48-55.  `i` and `j` have type `size_t`; the entry has the type of the vertex ids, with `w` bits. -/
def pushBack (k : Kind) (w : Nat) (g : Graph α) (i j : Nat) (a : α) : Res (Graph α) := do
  let rows := grow g.rows i
  let r ← vget rows i
  let rows ← vset rows i (put k r (j % 2 ^ w, a))
  return { g with rows := rows }

/-- A sequence of calls of `push_back`. -/
def pushAll (k : Kind) (w : Nat) (ps : List (Nat × Nat × α)) (g : Graph α) : Res (Graph α) :=
  ps.foldlM (fun g p => pushBack k w g p.1 p.2.1 p.2.2) g

/-- `num_vertices()`: volos.hpp:83, vofos.hpp:83; `size()`: vovos.hpp:57. -/
def numVertices (g : Graph α) : Nat := g.rows.length

/-- `num_edges()`: volos.hpp:84, vofos.hpp:84 (`vov` does not have it). -/
def numEdges (g : Graph α) : Res Nat :=
  match g.numEdges with
  | none => .error .uninitialised
  | some m => .ok m

/-- One iteration of `fill_adj_list`: build.hpp:126-134; the state is the graph and the count. -/
def fillStep (k : Kind) (w : Nat) (directed : Bool) (st : Graph α × Nat) (e : Nat × Nat × α) : Res (Graph α × Nat) := do
  let g ← pushBack k w st.1 e.1 e.2.1 e.2.2
  if directed then return (g, st.2 + 1)
  else do
    let g ← pushBack k w g e.2.1 e.1 e.2.2
    return (g, st.2 + 2)

/-- `index_adj_list(el)`, `index_vov(el)`: volos.hpp:58-60, vovos.hpp:77-79, build.hpp:120-139; `n` is the number of vertices of the edge list. -/
def ofEdgeList (k : Kind) (w : Nat) (directed : Bool) (n : Nat) (es : List (Nat × Nat × α)) : Res (Graph α) := do
  let st ← es.foldlM (fillStep k w directed) (ofSize n, 0)
  return { st.1 with numEdges := some st.2 }

end NW.AdjList
