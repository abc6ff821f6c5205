import Verif.Model.SortBy
import Verif.Model.TriangleExp
import Mathlib.Algebra.Order.Field.Rat

/-!
# Model of the triangle counting benchmark, bench/tc.cpp

Reading the options and the file, the timers, the logs and the messages are not modelled; the edge list is the one that `load_graph` has returned (C105).  The line numbers are those of bench/tc.cpp.
-/

namespace NW.TcBench
open Spec

/-- What the C++ library is left to choose: the order of the atomic increments in `degrees`; the results of the three sorts (by degree, of the edges, of the samples); and the numbers drawn. -/
structure Lib where
  sched : List Nat → List Nat
  byDegree : (Nat → Nat → Bool) → List Nat → List Nat
  sortEdges : List (Nat × Nat × Unit) → List (Nat × Nat × Unit)
  sortSamples : List Nat → List Nat
  draw : Nat → Nat

/-- The options `--lower`, `--relabel` and `--heuristic`: 199-205, 222-223. -/
structure Opts where
  lower : Bool
  relabel : Bool
  heuristic : Bool

/-- `direction`: 200-205. -/
def Opts.direction (o : Opts) : Csr.Direction := if o.lower then .descending else .ascending

/-- `succession`: 201-205. -/
def Opts.succession (o : Opts) : Csr.Succession := if o.lower then .predecessor else .successor

/-- `tc_relabel(A, degrees, direction)`: 60-64. -/
def tcRelabel (L : Lib) (d : Csr.Direction) (degrees : List Nat) (el : EdgeList Unit) : Res (EdgeList Unit) := do
  let r ← el.relabelByDegree L.sched L.byDegree false 0 d degrees
  return r.1

/-- `clean<0>(A, succession)`: 66-73. -/
def clean (L : Lib) (c : Csr.Succession) (el : EdgeList Unit) : EdgeList Unit :=
  let el := el.swapToTriangularDyn 0 (some c)
  let el := el.lexicalSortBy L.sortEdges
  let el := el.uniq
  el.removeSelfLoops

/-- The `--format`: compressed, or a vector of vectors or of lists. -/
inductive Format where
  | csr
  | lists

/-- `compress<Graph>(A)`: 75-81, seen as the rows that iterating over the graph gives.  `push_back_fill(A, B)`, build.hpp:89-96; opening and closing a vector of vectors or lists does nothing to the rows. -/
def compress (f : Format) (el : EdgeList Unit) : Res (Rows Unit) := do
  let es ← el.elems
  match f with
  | .csr =>
    let g ← (Csr.sized el.numVertices 0 : Csr Unit).pushBackFill es
    g.outer
  | .lists => es.foldlM (fun g x => Vov.pushBack g x.1 x.2.1 x.2.2) (Vov.empty el.numVertices)

/-- `worth_relabeling(el, degree)`: 84-106.  The averages are exact: rounding is not modelled. -/
def worthRelabeling (L : Lib) (el : EdgeList Unit) (degree : List Nat) : Res Bool := do
  if el.numVertices = 0 then .error .divByZero
  else if el.size / el.numVertices < 10 then return false
  else
    let num := min 1000 el.numVertices
    let samples ← (List.range num).mapM fun trial => vget degree (L.draw trial)
    let median ← vget (L.sortSamples samples) (num / 2)
    return decide (((samples.sum : ℚ) / num) / (13 / 10) > median)

/-- Whether the vertices are relabelled: 222-223. -/
def relabels (L : Lib) (o : Opts) (el : EdgeList Unit) (degree : List Nat) : Res Bool :=
  if o.relabel then (if o.heuristic then worthRelabeling L el degree else .ok true) else .ok false

/-- The edge list after 220-228. -/
def renamed (L : Lib) (o : Opts) (r : Bool) (degree : List Nat) (el : EdgeList Unit) : Res (EdgeList Unit) :=
  if r then tcRelabel L o.direction degree el else .ok el

/-- From the edge list that was read to the graph whose triangles are counted: 216-240. -/
def prepare (L : Lib) (o : Opts) (f : Format) (el : EdgeList Unit) : Res (Rows Unit) := do
  let degree ← el.degrees L.sched false 0
  let r ← relabels L o el degree
  let el ← renamed L o r degree el
  compress f (clean L o.succession el)

/-- The state of `TCVerifier`: the size of `intersection` and the total.  `std::set_intersection` writes as many elements as `intersection_size` counts.  With `strict`, they must be elements of the vector;
without, it is enough that they fit into the memory that `reserve` has got: 118-123. -/
def verifyEdge (strict : Bool) (g : Rows Unit) (st : Nat × Nat) (e : Nat × (Nat × Unit)) : Res (Nat × Nat) := do
  let u_out ← vget g e.1
  let v_out ← vget g e.2.1
  let k ← Util.intersectionSize (Triangle.ids u_out) (Triangle.ids v_out)
  if (if strict then st.1 else max st.1 g.length) < k then .error .outOfBounds
  else return (k, st.2 + k)

/-- `TCVerifier(graph)`: 109-127. -/
def tcVerifier (strict : Bool) (g : Rows Unit) : Run Nat := do
  let es ← Triangle.edgeRange g 0 g.length
  let st ← Run.lift (es.foldlM (verifyEdge strict g) (0, 0))
  return st.2

/-- The dispatch on the version: 272-318.  `w` is the width of `size_t`.  Version 11, the parallel set intersection of the C++ library, is not modelled; an unknown version reports 0. -/
def count (w id threads : Nat) (g : Rows Unit) : Run Nat :=
  match id with
  | 0 => Run.lift (Triangle.triangleCount g)
  | 1 => Run.lift (Triangle.countV1 g)
  | 2 => Run.lift (Triangle.countV2 g)
  | 3 => Triangle.countV3 g
  | 4 => Run.lift (Triangle.triangleCountPar g threads)
  | 5 => Run.lift (Triangle.countV5 w g threads)
  | 6 => Run.lift (Triangle.countV6 g threads)
  | 7 => Triangle.countV7 g
  | 8 => Triangle.countV7 g
  | 9 => Triangle.countV7 g
  | 10 => Triangle.countV10 g
  | 12 => Triangle.countV12 g threads
  | 13 => Triangle.countV13 g threads
  | 14 => Triangle.countV14 g
  | _ => pure 0

/-- One run of the benchmark on an edge list: 216-318. -/
def bench (L : Lib) (o : Opts) (f : Format) (w id threads : Nat) (el : EdgeList Unit) : Run Nat := do
  let g ← Run.lift (prepare L o f el)
  count w id threads g

/-- The number that `--verify` compares with: 247-251. -/
def verify (strict : Bool) (L : Lib) (o : Opts) (f : Format) (el : EdgeList Unit) : Run Nat := do
  let g ← Run.lift (prepare L o f el)
  tcVerifier strict g

end NW.TcBench
