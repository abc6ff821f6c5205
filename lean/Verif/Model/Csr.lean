import Verif.Model.EdgeList

/-!
# Model of the compressed adjacency (containers/compressed.hpp, adjacency.hpp) and of its construction
from an edge list (build.hpp)

`index_t`, the offset type, is `Nat`: offsets and degrees do not wrap around.
-/

namespace NW

/-! ## Library vocabulary -/

/-- `v.resize(n)` with value-initialised new elements. -/
def vresize {β : Type} (v : List β) (n : Nat) (d : β) : List β := v.take n ++ List.replicate (n - v.length) d

/-- `std::copy(xs.begin(), xs.end(), v.begin() + k)`. -/
def vcopy {β : Type} (v : List β) (k : Nat) (xs : List β) : Res (List β) :=
  if k + xs.length ≤ v.length then .ok (v.take k ++ xs ++ v.drop (k + xs.length)) else .error .outOfBounds

/-- `++v[i]`. -/
def vincr (v : List Nat) (i : Nat) : Res (List Nat) := do
  let x ← vget v i
  vset v i (x + 1)

/-- A sequence of increments `++v[i]`. -/
def vincrAll : List Nat → List Nat → Res (List Nat)
  | v, [] => .ok v
  | v, i :: is => do
    let v' ← vincr v i
    vincrAll v' is

/-- `std::inclusive_scan` started with `acc`. -/
def inclusiveScan (acc : Nat) : List Nat → List Nat
  | [] => []
  | x :: xs => (acc + x) :: inclusiveScan (acc + x) xs

/-- `std::exclusive_scan` with initial value `acc`. -/
def exclusiveScan (acc : Nat) : List Nat → List Nat
  | [] => []
  | x :: xs => acc :: exclusiveScan (acc + x) xs

/-- The contract of `std::sort` for comparator `lt`: the result is a permutation in which no element is less than
an earlier one.  Nothing else is known about the order (no stability). -/
structure IsSort {β : Type} (lt : β → β → Bool) (srt : List β → List β) : Prop where
  perm : ∀ l, (srt l).Perm l
  sorted : ∀ l, (srt l).Pairwise (fun a b => lt b a = false)

/-- A schedule of independent atomic actions: any order. -/
def IsSchedule {β : Type} (sched : List β → List β) : Prop := ∀ l, (sched l).Perm l

/-! ## The structure -/

/-- `indexed_struct_of_arrays<index_t, vertex_id, Attributes...>`: compressed.hpp:60-69.  `tgt` is column 0 of
`to_be_indexed_`, `attrs` its other columns as tuples. -/
structure Csr (α : Type) where
  isOpen : Bool
  N : Nat
  indices : List Nat
  tgt : List Nat
  attrs : List α
  deriving DecidableEq, Repr

namespace Csr
variable {α : Type}

/-- `indexed_struct_of_arrays(size_t N, size_t M)`: compressed.hpp:78-79; also `index_adjacency(N, M)`,
adjacency.hpp:83. -/
def sized [Inhabited α] (n m : Nat) : Csr α :=
  ⟨false, n, List.replicate (n + 1) 0, List.replicate m 0, List.replicate m default⟩

/-- The constructors from vectors: compressed.hpp:81-89, adjacency.hpp:129-149. -/
def ofVectors (indices tgt : List Nat) (attrs : List α) : Csr α :=
  ⟨false, indices.length - 1, indices, tgt, attrs⟩

/-- `size()`, and `num_vertices()[0]` of an adjacency: compressed.hpp:218, adjacency.hpp:151. -/
def numVertices (g : Csr α) : Nat := g.indices.length - 1

/-- `num_edges()`: adjacency.hpp:152. -/
def numEdges (g : Csr α) : Nat := g.tgt.length

/-- The half-open bounds of the sub-range for `operator[](u)` or for dereferencing `begin() + u`:
compressed.hpp:179-186, 215-216, with the clamp in the constructor of the range,
adaptors/splittable_range_adaptor.hpp:49. -/
def rowBounds (g : Csr α) (u : Nat) : Res (Nat × Nat) := do
  let b ← vget g.indices u
  let e ← vget g.indices (u + 1)
  return (if b > e then e else b, e)

/-- Element `k` of `to_be_indexed_`: soa.hpp:143-151. -/
def edgeAt (g : Csr α) (k : Nat) : Res (Nat × α) := do
  let v ← vget g.tgt k
  let a ← vget g.attrs k
  return (v, a)

/-- Iterating over `g[u]`: the neighbours of `u` with the edge attributes. -/
def row (g : Csr α) (u : Nat) : Res (List (Nat × α)) := do
  let (b, e) ← g.rowBounds u
  (List.range' b (e - b)).mapM g.edgeAt

/-- Iterating over the whole structure, `for (auto&& nbrs : g) for (auto&& e : nbrs)`:
`begin()` is position 0 and `end()` position `N_`, compressed.hpp:207-212. -/
def outer (g : Csr α) : Res (List (List (Nat × α))) := (List.range g.N).mapM g.row

/-- `source(edge)`: compressed.hpp:223-231.  `std::upper_bound` on a sorted range returns the first position whose
value is greater than `edge`. -/
def source (g : Csr α) (edge : Nat) : Nat :=
  (g.indices.takeWhile (fun x => decide (x ≤ edge))).length - 1

/-- `degrees()`, serial: compressed.hpp:384-394 (`adjacent_difference`, then `erase` of the first element).
For non-decreasing offsets the unsigned differences are the natural ones. -/
def degrees (g : Csr α) : List Nat := (g.indices.zip (g.indices.drop 1)).map (fun p => p.2 - p.1)

/-- `degrees(policy)`, parallel: compressed.hpp:399-412.  Each `degs[i]` is written by one iteration. -/
def degreesPar (g : Csr α) : Res (List Nat) :=
  (List.range (g.indices.length - 1)).mapM fun i => do
    let b ← vget g.indices (i + 1)
    let a ← vget g.indices i
    return b - a

end Csr

namespace EdgeList
variable {α : Type}

/-- `std::get<idx>(el)` for `idx` 0 or 1. -/
def col (el : EdgeList α) (idx : Nat) : List Nat := if idx = 0 then el.col0 else el.col1

/-- The increments done by `degrees<d_idx>(el)`, in program order: build.hpp:475-490. -/
def degreeEvents (directed : Bool) (dIdx : Nat) (el : EdgeList α) : List Nat :=
  if directed then el.col dIdx
  else (el.col0.zip el.col1).flatMap fun p => [p.1, p.2]

/-- `degrees<d_idx>(el)`: build.hpp:459-492.  The parallel `for_each` performs each `++tmp[x]` as one atomic
action; `sched` is the order in which they happen to be executed. -/
def degrees (sched : List Nat → List Nat) (directed : Bool) (dIdx : Nat) (el : EdgeList α) : Res (List Nat) :=
  vincrAll (List.replicate el.numVertices 0) (sched (el.degreeEvents directed dIdx))

end EdgeList

namespace Csr
variable {α : Type}

/-- The comparator of the sorts in build.hpp:262 and 304. -/
def keyLt (a b : Nat × Nat × α) : Bool := decide (a.1 < b.1)

/-- `fill_directed<idx>(el, N, cs)`: build.hpp:209-265 (the `#else` branch, which is the compiled one).
`directed` is the edge list's own directedness, used by `degrees`. The sort works in place on the zipped
`tmp` and `to_be_indexed_`. -/
def fillDirected [Inhabited α] (sched : List Nat → List Nat)
    (srt : List (Nat × Nat × α) → List (Nat × Nat × α)) (directed : Bool) (idx : Nat)
    (el : EdgeList α) (n : Nat) (cs : Csr α) : Res (Csr α) := do
  let degree ← el.degrees sched directed idx
  let ind ← vset (vresize cs.indices (n + 1) 0) 0 0
  let ind ← vcopy ind 1 (inclusiveScan 0 degree)
  let tgt ← vcopy (vresize cs.tgt el.size 0) 0 (el.col ((idx + 1) % 2))
  let att ← vcopy (vresize cs.attrs el.size default) 0 el.attrs
  let z := srt ((el.col idx).zip (tgt.zip att))
  return { cs with indices := ind, tgt := z.map (·.2.1), attrs := z.map (·.2.2) }

/-- `fill_undirected<idx>(el, N, cs)`: build.hpp:268-304. -/
def fillUndirected [Inhabited α] (srt : List (Nat × Nat × α) → List (Nat × Nat × α)) (idx : Nat)
    (el : EdgeList α) (n : Nat) (cs : Csr α) : Res (Csr α) := do
  let kdx := (idx + 1) % 2
  let tmp ← vcopy (List.replicate (2 * el.size) 0) 0 (el.col idx)
  let tmp ← vcopy tmp el.size (el.col kdx)
  let ind ← vset (vresize cs.indices (n + 1) 0) 0 0
  let degree ← vincrAll (List.replicate n 0) tmp
  let ind ← vcopy ind 1 (inclusiveScan 0 degree)
  let tgt ← vcopy (vresize cs.tgt tmp.length 0) 0 (el.col kdx)
  let tgt ← vcopy tgt el.size (el.col idx)
  let att ← vcopy (vresize cs.attrs tmp.length default) 0 el.attrs
  let att ← vcopy att el.size el.attrs
  let z := srt (tmp.zip (tgt.zip att))
  return { cs with indices := ind, tgt := z.map (·.2.1), attrs := z.map (·.2.2) }

/-- One iteration of the loop of `sort_to_be_indexed`: compressed.hpp:421-423; sorts the ids of row `i`. -/
def sortRow (srtIds : List Nat → List Nat) (indices : List Nat) (tgt : List Nat) (i : Nat) : Res (List Nat) := do
  let b ← vget indices i
  let e ← vget indices (i + 1)
  if b ≤ e ∧ e ≤ tgt.length then
    return tgt.take b ++ srtIds ((tgt.drop b).take (e - b)) ++ tgt.drop e
  else .error .outOfBounds

/-- `sort_to_be_indexed()`: compressed.hpp:417-428.  Only column 0 is sorted. -/
def sortToBeIndexed (srtIds : List Nat → List Nat) (g : Csr α) : Res (Csr α) := do
  let tgt ← (List.range (g.indices.length - 1)).foldlM (sortRow srtIds g.indices) g.tgt
  return { g with tgt := tgt }

/-- The oracles of a parallel build: schedule of the atomic increments, the sort by key, the sort of ids. -/
structure Oracles (α : Type) where
  sched : List Nat → List Nat
  srt : List (Nat × Nat × α) → List (Nat × Nat × α)
  srtIds : List Nat → List Nat

/-- The oracles behave as the standard library promises. -/
structure Oracles.Ok (o : Oracles α) : Prop where
  sched : IsSchedule o.sched
  srt : IsSort keyLt o.srt
  srtIds : IsSort (fun a b : Nat => decide (a < b)) o.srtIds

/-- `fill<idx>(el, cs, dir, sort_adjacency)`: build.hpp:357-369; `directed` is the directedness of the edge
list's type and `asDirected` the argument `dir`. -/
def fillDir [Inhabited α] (o : Oracles α) (directed asDirected : Bool) (idx : Nat) (sort : Bool)
    (el : EdgeList α) (cs : Csr α) : Res (Csr α) := do
  let g ← if asDirected then fillDirected o.sched o.srt directed idx el el.numVertices cs
    else fillUndirected o.srt idx el el.numVertices cs
  if sort then g.sortToBeIndexed o.srtIds else return g

/-- `fill<idx>(el, cs, sort_adjacency)`: build.hpp:343-355 (the directedness of the edge list's type decides). -/
def fill [Inhabited α] (o : Oracles α) (directed : Bool) (idx : Nat) (sort : Bool)
    (el : EdgeList α) (cs : Csr α) : Res (Csr α) :=
  fillDir o directed directed idx sort el cs

/-- `index_adjacency(el, sort_adjacency)`: adjacency.hpp:90-106.  The base is sized `num_vertices + 1`. -/
def ofEdgeList [Inhabited α] (o : Oracles α) (directed : Bool) (idx : Nat) (sort : Bool) (el : EdgeList α) :
    Res (Csr α) :=
  fill o directed idx sort el (sized (el.numVertices + 1) 0)

/-- `index_adjacency(N, el, sort_adjacency)`: adjacency.hpp:108-127.  The base is sized `N`. -/
def ofEdgeListN [Inhabited α] (o : Oracles α) (directed : Bool) (idx : Nat) (sort : Bool) (n : Nat)
    (el : EdgeList α) : Res (Csr α) :=
  fill o directed idx sort el (sized n 0)

/-- `make_adjacency<idx>(el, n, dir)`: adjacency.hpp:185-190.  As written the call `fill(el, adj, dir, policy)` passes
the policy to the `bool` parameter and does not compile; modelled as the evident intention. -/
def makeAdjacency [Inhabited α] (o : Oracles α) (directed : Bool) (idx : Nat) (n : Nat) (asDirected : Bool)
    (el : EdgeList α) : Res (Csr α) :=
  fillDir o directed asDirected idx false el (sized n 0)

end Csr

end NW
