import Verif.Model.SortBy
import Verif.Model.CcVerify
import Verif.Model.Cc
import Verif.Model.CcExp
import Verif.Model.SvExp
import Verif.Model.LpExp
import Verif.Run

/-!
# Model of the connected components benchmark, bench/cc.cpp

Reading the options and the file, the timers, the logs and the messages other than the report of the components are not modelled; the edge list is the one that `load_graph` has returned (C105).
The line numbers are those of bench/cc.cpp.
-/

namespace NW.CcBench
open Spec

/-- What the C++ library is left to choose: the order of the atomic increments in `degrees`; the results of the sorts by degree, of the edges and of the pairs of a label and its count;
the schedule and the sorts used in building the graphs; the order in which the unordered map is traversed. -/
structure Lib where
  sched : List Nat → List Nat
  byDegree : (Nat → Nat → Bool) → List Nat → List Nat
  sortEdges : List (Nat × Nat × Unit) → List (Nat × Nat × Unit)
  build : Csr.Oracles Unit
  order : List (Nat × Nat) → List (Nat × Nat)
  sortCounts : List (Nat × Nat) → List (Nat × Nat)

/-- The options `--relabel`, `--direction`, `--clean` and `--succession`: 115-128, 137-151. -/
structure Opts where
  relabel : Bool
  direction : Csr.Direction
  clean : Bool
  succession : Option Csr.Succession

/-- `relabel_by_degree<0>(aos_a, direction, degree)` if it is asked for: 118-120, 140-142; `directed` is the directedness of the edge list. -/
def renamed (L : Lib) (o : Opts) (directed : Bool) (degree : List Nat) (el : EdgeList Unit) : Res (EdgeList Unit) :=
  if o.relabel then do
    let r ← el.relabelByDegree L.sched L.byDegree directed 0 o.direction degree
    return r.1
  else .ok el

/-- Cleaning up the edge list if it is asked for: 123-128, 146-151. -/
def cleaned (L : Lib) (o : Opts) (el : EdgeList Unit) : EdgeList Unit :=
  if o.clean then
    let el := el.swapToTriangularDyn 0 o.succession
    let el := el.lexicalSortBy L.sortEdges
    let el := el.uniq
    el.removeSelfLoops
  else el

/-- The rows `g[u]` for `u < g.size()`, as the algorithms read them.  (Iterating with `begin()` and `end()` would read one row more, see C08.) -/
def rowsOf (g : Csr Unit) : Res (Rows Unit) := (List.range g.numVertices).mapM g.row

/-- The adjacency `<idx>` of an edge list: 130, 153-154. -/
def adjacency (L : Lib) (directed : Bool) (idx : Nat) (el : EdgeList Unit) : Res (Rows Unit) := do
  let g ← Csr.ofEdgeList L.build directed idx false el
  rowsOf g

/-- `t_graph`: empty for symmetric files, 131; the adjacency `<1>` otherwise, 154. -/
def second (L : Lib) (symmetric : Bool) (el : EdgeList Unit) : Res (Rows Unit) := if symmetric then .ok [] else adjacency L true 1 el

/-- `reader(file, symmetric, verbose)`: 112-161. -/
def reader (L : Lib) (o : Opts) (symmetric : Bool) (el : EdgeList Unit) : Res (Rows Unit × Rows Unit) := do
  let degree ← el.degrees L.sched (!symmetric) 0
  let el ← renamed L o (!symmetric) degree el
  let g ← adjacency L (!symmetric) 0 (cleaned L o el)
  let t ← second L symmetric (cleaned L o el)
  return (g, t)

/-- `count[i] += 1`: 60-62.  The counters are as wide as vertex ids; that they do not overflow is not modelled. -/
def bump (m : List (Nat × Nat)) (i : Nat) : List (Nat × Nat) :=
  if m.any (fun e => e.1 = i) then m.map fun e => if e.1 = i then (i, e.2 + 1) else e else m ++ [(i, 1)]

/-- The map from the labels to the numbers of their occurrences: 59-62. -/
def counts (comp : List Nat) : List (Nat × Nat) := comp.foldl bump []

/-- What `print_top_n` prints: the number of clusters listed, those clusters as pairs of a label and a size, and the number of components. -/
structure Report where
  k : Nat
  top : List (Nat × Nat)
  total : Nat

/-- `print_top_n(g, comp, n)`: 57-77. -/
def printTopN (L : Lib) (comp : List Nat) (n : Nat := 5) : Report :=
  let count := counts comp
  let k := min n count.length
  ⟨k, (L.sortCounts (L.order count)).take k, count.length⟩

/-- The dispatch on the version: 203-237; vertex ids have 32 bits.  An unknown version calls nothing: that is not a run. -/
def labels (id threads : Nat) (g t : Rows Unit) : Run (List Nat) := fun o =>
  match id with
  | 0 => Runs (Cc.AStep (2 ^ 32) g t 2) (Cc.start g.length 2) o
  | 1 => Runs (CcExp.AStep (2 ^ 32) g []) (CcExp.start g CcExp.ccv1) o
  | 2 => Runs (CcExp.AStep (2 ^ 32) g []) (CcExp.start g CcExp.ccv2) o
  | 5 => Runs (CcExp.AStep (2 ^ 32) g []) (CcExp.start g CcExp.ccv5) o
  | 6 => Runs (SvExp.Step SvExp.byVertex (2 ^ 32) g) (SvExp.start g) o
  | 7 => Runs (Cc.AStep (2 ^ 32) g t 2) (Cc.start g.length 2) o
  | 8 => Runs (SvExp.Step SvExp.byVertex (2 ^ 32) g) (SvExp.start g) o
  | 9 => Runs (SvExp.Step SvExp.byEdge (2 ^ 32) g) (SvExp.start g) o
  | 10 => Runs (LpExp.Step .plain g threads) (LpExp.start g threads) o
  | 11 => Runs (LpExp.Step .cyclic g threads) (LpExp.start g threads) o
  | _ => False

/-- `CCVerifier(graph, t_graph, comp)`: 190-197. -/
def verdict (g t : Rows Unit) (comp : List Nat) : Run Bool := fun o => CcVerify.Verify g t comp o

/-- One trial with `--verbose` and `--verify`: the report, and whether the labels passed: 112-168, 190-237. -/
def bench (L : Lib) (o : Opts) (symmetric : Bool) (id threads : Nat) (el : EdgeList Unit) : Run (Report × Bool) := do
  let p ← Run.lift (reader L o symmetric el)
  let comp ← labels id threads p.1 p.2
  let b ← verdict p.1 p.2 comp
  return (printTopN L comp, b)

end NW.CcBench
