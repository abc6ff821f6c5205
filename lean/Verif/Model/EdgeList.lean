import Verif.Base

/-!
# Model of `index_edge_list` (edge_list.hpp) on top of `struct_of_arrays` (containers/soa.hpp)

The attribute pack `Attributes...` is one type `α`; the attribute columns, which the functions of this file
always treat alike, are one column of tuples.  Vertex ids are natural numbers; `w` is the bit width of
`vertex_id` and every conversion to that type is an explicit `% 2 ^ w`.
-/

namespace NW

/-- `index_edge_list<vertex_id, unipartite_graph_base, direct, Attributes...>`:
edge_list.hpp:68-69, graph_base.hpp:59-91 (`vertex_cardinality[0]`, `is_open`), soa.hpp:61 (columns).
The directedness is a template parameter and lives in the functions that inspect it. -/
structure EdgeList (α : Type) where
  card : Nat
  isOpen : Bool
  col0 : List Nat
  col1 : List Nat
  attrs : List α
  deriving DecidableEq, Repr

namespace EdgeList
variable {α : Type}

/-- `index_edge_list(size_t N = 0)`: edge_list.hpp:95 (opens for push_back). -/
def new (n : Nat) : EdgeList α := ⟨n, true, [], [], []⟩

/-- `open_for_push_back`: edge_list.hpp:124-131. -/
def openForPushBack (el : EdgeList α) : EdgeList α := { el with isOpen := true }

/-- `close_for_push_back`: edge_list.hpp:133-141. -/
def closeForPushBack (el : EdgeList α) : EdgeList α := { el with isOpen := false }

/-- The update `vertex_cardinality[0] = std::max<vertex_id_type>(std::max(i, j)+1, vertex_cardinality[0])`:
edge_list.hpp:147 and 161; `std::max<vertex_id_type>` converts both arguments to `vertex_id_type`. -/
def bumpCard (w card i j : Nat) : Nat := max ((max i j + 1) % 2 ^ w) (card % 2 ^ w)

/-- The column appends of `struct_of_arrays::push_back`: soa.hpp:243-249. -/
def appendCols (el : EdgeList α) (i j : Nat) (a : α) : EdgeList α :=
  { el with col0 := el.col0 ++ [i], col1 := el.col1 ++ [j], attrs := el.attrs ++ [a] }

/-- `push_back(vertex_id_type i, vertex_id_type j, Attributes... attrs)`: edge_list.hpp:143-154
(unipartite branch). The arguments are converted to `vertex_id_type` by the call. -/
def pushBack (w : Nat) (el : EdgeList α) (i j : Nat) (a : α) : Res (EdgeList α) := do
  check el.isOpen
  let i := i % 2 ^ w
  let j := j % 2 ^ w
  return appendCols { el with card := bumpCard w el.card i j } i j a

/-- `push_back(const element& elem)`: edge_list.hpp:156-168 (unipartite branch; no assertion). -/
def pushElem (w : Nat) (el : EdgeList α) (i j : Nat) (a : α) : EdgeList α :=
  let i := i % 2 ^ w
  let j := j % 2 ^ w
  appendCols { el with card := bumpCard w el.card i j } i j a

/-- `index_edge_list(std::initializer_list<element> l)`: edge_list.hpp:100-122 (debug output omitted). -/
def ofList (w : Nat) (l : List (Nat × Nat × α)) : EdgeList α :=
  closeForPushBack (l.foldl (fun el x => pushElem w el x.1 x.2.1 x.2.2) (openForPushBack ⟨0, false, [], [], []⟩))

/-- `size()` / `num_edges()`: edge_list.hpp:170, 178-180, soa.hpp:332-334. -/
def size (el : EdgeList α) : Nat := el.col0.length

/-- `num_vertices()[0]`: edge_list.hpp:186-188, 283-288. -/
def numVertices (el : EdgeList α) : Nat := el.card

/-- `operator[](k)` / dereferencing `begin() + k`: soa.hpp:143-151, 211-217. -/
def «at» (el : EdgeList α) (k : Nat) : Res (Nat × Nat × α) := do
  let i ← vget el.col0 k
  let j ← vget el.col1 k
  let a ← vget el.attrs k
  return (i, j, a)

/-- The elements from `begin()` to `end()` (`begin() + size()`): soa.hpp:191-209. -/
def elems (el : EdgeList α) : Res (List (Nat × Nat × α)) :=
  (List.range el.size).mapM el.at

/-- One call in a history of the mutating API of an edge list. -/
inductive Op (α : Type) where
  | openForPushBack
  | closeForPushBack
  | pushBack (i j : Nat) (a : α)
  | pushElem (i j : Nat) (a : α)

/-- Executing one call. -/
def exec (w : Nat) (el : EdgeList α) : Op α → Res (EdgeList α)
  | .openForPushBack => .ok el.openForPushBack
  | .closeForPushBack => .ok el.closeForPushBack
  | .pushBack i j a => el.pushBack w i j a
  | .pushElem i j a => .ok (el.pushElem w i j a)

/-- Executing a history of calls. -/
def run (w : Nat) : EdgeList α → List (Op α) → Res (EdgeList α)
  | el, [] => .ok el
  | el, op :: ops => do
    let el' ← exec w el op
    run w el' ops

/-- `operator==`: edge_list.hpp:256-258 and soa.hpp:336-338.  `std::equal(policy, begin(), end(), a.begin())`
requires the second range to be at least as long as the first; otherwise it reads past its end. -/
def beq [DecidableEq α] (a b : EdgeList α) : Res Bool :=
  if a.card = b.card then
    if b.size < a.size then .error .outOfBounds
    else do
      let xs ← a.elems
      let ys ← (List.range a.size).mapM b.at
      return decide (xs = ys)
  else .ok false

end EdgeList

/-! ## Bipartite edge lists -/

/-- `index_edge_list<vertex_id, bipartite_graph_base, ...>`: graph_base.hpp:93-129, edge_list.hpp:96-98. -/
structure BiEdgeList (α : Type) where
  card0 : Nat
  card1 : Nat
  isOpen : Bool
  col0 : List Nat
  col1 : List Nat
  attrs : List α
  deriving DecidableEq, Repr

namespace BiEdgeList
variable {α : Type}

/-- `index_edge_list(size_t M = 0, size_t N = 0)`: edge_list.hpp:96-98. -/
def new (m n : Nat) : BiEdgeList α := ⟨m, n, true, [], [], []⟩

/-- `push_back(i, j, attrs...)`: edge_list.hpp:143-154, bipartite branch. -/
def pushBack (w : Nat) (el : BiEdgeList α) (i j : Nat) (a : α) : Res (BiEdgeList α) := do
  check el.isOpen
  let i := i % 2 ^ w
  let j := j % 2 ^ w
  return { el with
    card0 := max ((i + 1) % 2 ^ w) (el.card0 % 2 ^ w)
    card1 := max ((j + 1) % 2 ^ w) (el.card1 % 2 ^ w)
    col0 := el.col0 ++ [i], col1 := el.col1 ++ [j], attrs := el.attrs ++ [a] }

/-- A sequence of `push_back` calls. -/
def pushAll (w : Nat) : BiEdgeList α → List (Nat × Nat × α) → Res (BiEdgeList α)
  | el, [] => .ok el
  | el, x :: xs => do
    let el' ← el.pushBack w x.1 x.2.1 x.2.2
    pushAll w el' xs

/-- `size()`: edge_list.hpp:170. -/
def size (el : BiEdgeList α) : Nat := el.col0.length

/-- `num_vertices(el, idx)`: edge_list.hpp:283-288. -/
def numVertices (el : BiEdgeList α) (idx : Nat) : Nat := if idx = 0 then el.card0 else el.card1

/-- `operator[](k)`: soa.hpp:211-217. -/
def «at» (el : BiEdgeList α) (k : Nat) : Res (Nat × Nat × α) := do
  let i ← vget el.col0 k
  let j ← vget el.col1 k
  let a ← vget el.attrs k
  return (i, j, a)

/-- The elements from `begin()` to `end()`: soa.hpp:191-209. -/
def elems (el : BiEdgeList α) : Res (List (Nat × Nat × α)) :=
  (List.range el.size).mapM el.at

end BiEdgeList

end NW
