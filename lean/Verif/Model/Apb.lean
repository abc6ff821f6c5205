import Verif.Concur
import Verif.Model.Csr
import Verif.Model.Ranges
import Verif.Spec.Walk

/-!
# Model of the abstraction penalty benchmarks, apb/

Each of these programs times the same computation, written in several ways.  What is timed is modelled; the timers, options, messages and the repetition of the trials are not.
-/

namespace NW.Apb
open Spec

variable {α S R : Type}

/-! ## The ways to write a loop over all edges

`body s i e` is what the innermost statement does with the edge `e` (target and attributes) of vertex `i`, in the state `s`. -/

/-- `for (i = 0; i < N; ++i) for (j = ptr[i]; j < ptr[i + 1]; ++j)` on the arrays of the structure: spmv.cpp:48-56, plain.cpp:183-190, 345-352, tbb.cpp:180-188.
Simplification: the whole edge `j` is read even where the statement uses only `i` (plain.cpp:188). -/
def raw (body : S → Nat → Nat × α → Res S) (g : Csr α) (s : S) : Res S :=
  (List.range g.numVertices).foldlM (init := s) fun s i => do
    let b ← vget g.indices i
    let e ← vget g.indices (i + 1)
    (List.range' b (e - b)).foldlM (init := s) fun s j => do
      let x ← g.edgeAt j
      body s i x

/-- `for (i = 0; i < N; ++i) for (auto&& e : graph[i])`, written with iterators, also inside `for_each` with a counting iterator: plain.cpp:278-282, 321-325, 440-444, 483-487. -/
def indexed (body : S → Nat → Nat × α → Res S) (g : Csr α) (s : S) : Res S :=
  (List.range g.numVertices).foldlM (init := s) fun s i => do
    let r ← g.row i
    r.foldlM (fun s e => body s i e) s

/-- `k = 0; for (auto&& i : graph) { for (auto&& e : i) …; ++k; }`, also with iterators or `for_each`: spmv.cpp:68-74, 86-92, 104-111, tbb.cpp:200-206, 218-224, containers.cpp:103-109, 121-127, 139-146.
`begin()` and `end()` are the positions 0 and `N_`: compressed.hpp:207-212. -/
def nested (body : S → Nat → Nat × α → Res S) (g : Csr α) (s : S) : Res S := do
  let (s, _) ← (List.range g.N).foldlM (init := (s, 0)) fun (s, k) u => do
    let r ← g.row u
    let s ← r.foldlM (fun s e => body s k e) s
    return (s, k + 1)
  return s

/-- `for (auto&& [k, u_neighbors] : make_neighbor_range(graph)) for (auto&& e : u_neighbors)`: spmv.cpp:126-130, containers.cpp:161-165.  Simplification: the neighbourhoods are collected before the body is executed; the body does not change the graph. -/
def Neighbors (body : S → Nat → Nat × α → Res S) (g : Csr α) (s : S) (o : Res S) : Prop :=
  ∃ ns, (Ranges.neighborIter g.row g.N).Visits 0 ns ∧ o = (ns >>= fun ns => ns.foldlM (fun s n => n.2.foldlM (fun s e => body s n.1 e) s) s)

/-- `for (auto&& e : edge_range(graph))`, also with `for_each`: spmv.cpp:144-146, 158-160, 172-174, 186-188, 200, 212, plain.cpp:203-205, 218-220, 233-235, 248-250, 263-265, 295, 308, 365-367,
380-382, 395-397, 410-412, 425-427, 457, 470, tbb.cpp:47-49, 62, 113-115, 128, 236.  Simplification as in `Neighbors`. -/
def Edges (body : S → Nat → Nat × α → Res S) (g : Csr α) (s : S) (o : Res S) : Prop :=
  ∃ es, (match Ranges.edgeStart g.row 0 g.N with
      | .ok p => (Ranges.edgeIter g.row g.N).Visits p es
      | .error f => es = .error f) ∧ o = (es >>= fun es => es.foldlM (fun s e => body s e.1 e.2) s)

/-! ## The bodies -/

/-- `y[i] += x[j] * v`: spmv.cpp:54, 71, 89, 108, 128, 145.  `op a b v` is `a + b * v`, in whatever arithmetic. -/
def spmvBody (op : R → R → α → R) (x : List R) (y : List R) (i : Nat) (e : Nat × α) : Res (List R) := do
  let b ← vget x e.1
  let a ← vget y i
  vset y i (op a b e.2)

/-- `++degrees[i]`: plain.cpp:188, 204, 280. -/
def outBody (y : List Nat) (i : Nat) (_ : Nat × α) : Res (List Nat) := do
  let a ← vget y i
  vset y i (a + 1)

/-- `++degrees[j]`: plain.cpp:350, 366, 442. -/
def inBody (y : List Nat) (_ : Nat) (e : Nat × α) : Res (List Nat) := do
  let a ← vget y e.1
  vset y e.1 (a + 1)

/-! ## The parallel loops over the pieces of an edge range -/

/-- What a thread still has to do with its piece, and the value it has loaded for the first of it. -/
structure Thread (E R : Type) where
  todo : List E
  loaded : Option R

/-- `tbb::parallel_for(per, [&](auto&& x) { std::for_each(x.begin(), x.end(), [&](auto&& x) { y[i] += … }); })`: tbb.cpp:93, 159, 248-250.  The statement loads `y[i]` and later
stores the new value; nothing keeps the threads apart.  `at_ e` is the index and `op a e` the new value. -/
inductive Step {E R : Type} (at_ : E → Nat) (op : R → E → Res R) : List (Thread E R) × List R → Res ((List (Thread E R) × List R) ⊕ List R) → Prop
  | load {ts : List (Thread E R)} {y : List R} {t : Nat} {e : E} {es : List E} (h : ts[t]? = some ⟨e :: es, none⟩) :
      Step at_ op (ts, y) (do
        let a ← vget y (at_ e)
        return .inl (ts.set t ⟨e :: es, some a⟩, y))
  | store {ts : List (Thread E R)} {y : List R} {t : Nat} {e : E} {es : List E} {a : R} (h : ts[t]? = some ⟨e :: es, some a⟩) :
      Step at_ op (ts, y) (do
        let a ← op a e
        let y ← vset y (at_ e) a
        return .inl (ts.set t ⟨es, none⟩, y))
  | done {ts : List (Thread E R)} {y : List R} (h : ∀ t ∈ ts, t.todo = []) : Step at_ op (ts, y) (.ok (.inr y))

/-- The threads at the start, one for each piece. -/
def threads {E R : Type} (pieces : List (List E)) : List (Thread E R) := pieces.map fun p => ⟨p, none⟩

/-! ## The searches -/

/-- The body of the loop over the neighbours in breadth-first search: apb/bfs.cpp:53-58. -/
def bfsEdge (st : List Bool × List Nat) (n : Nat) : Res (List Bool × List Nat) := do
  let b ← vget st.1 n
  if b then return st
  else
    let visited ← vset st.1 n true
    return (visited, st.2 ++ [n])

/-- One round of the loop: apb/bfs.cpp:50-59.  The variants (lines 74-83, 98-107, 122-131, 146-155, 170-179, 204-213, 238-248, 263-272) differ in the way the neighbours are accessed.
Simplification: `g` holds the rows of the graph. -/
def bfsBody (g : Rows α) (st : List Bool × List Nat) : Res ((List Bool × List Nat) ⊕ List Bool) :=
  match st with
  | (visited, []) => return .inr visited
  | (visited, v :: q) => do
    let r ← vget g v
    let st ← (r.map Prod.fst).foldlM bfsEdge (visited, q)
    return .inl st

/-- apb/bfs.cpp:36-37, 42-59. -/
def Bfs (g : Rows α) (seed : Nat) (o : Res (List Bool)) : Prop :=
  match vset (List.replicate g.length false) seed true with
  | .error f => o = .error f
  | .ok visited => Loop (bfsBody g) (visited, [seed]) o

/-- The body of the loop over the neighbours in depth-first search: apb/dfs.cpp:54-58.  The top of the stack comes first. -/
def dfsEdge (visited : List Bool) (stack : List Nat) (n : Nat) : Res (List Nat) := do
  let b ← vget visited n
  if b then return stack else return n :: stack

/-- Marking the vertex: apb/dfs.cpp:50-52. -/
def dfsMark (visited : List Bool) (v : Nat) : Res (List Bool) := do
  let b ← vget visited v
  if b then return visited else vset visited v true

/-- One round of the loop: apb/dfs.cpp:47-59; a vertex that was visited before is expanded again.  The variants (73-85, 99-111, 125-137, 151-163) differ in the way the neighbours are accessed.
Simplification: `g` holds the rows of the graph. -/
def dfsBody (g : Rows α) (st : List Bool × List Nat) : Res ((List Bool × List Nat) ⊕ List Bool) :=
  match st with
  | (visited, []) => return .inr visited
  | (visited, v :: q) => do
    let visited ← dfsMark visited v
    let r ← vget g v
    let q ← (r.map Prod.fst).foldlM (dfsEdge visited) q
    return .inl (visited, q)

/-- apb/dfs.cpp:33-34, 39-59. -/
def Dfs (g : Rows α) (seed : Nat) (o : Res (List Bool)) : Prop := Loop (dfsBody g) (List.replicate g.length false, [seed]) o

end NW.Apb
