import Verif.Run
import Verif.Spec.Walk
import Verif.Model.Ranges
import Verif.Model.DagRange

/-!
# Model of algorithms/dag_based_mis.hpp

Simplification: the 64-bit vertex numbers and degrees are natural numbers.
-/

namespace NW.DagMis
open Spec Ranges

/-- `l[i].push_back(x)`. -/
def pushAt (l : List (List Nat)) (i x : Nat) : Res (List (List Nat)) := do
  let r ← vget l i
  vset l i (r ++ [x])

/-- The loop over the degrees: dag_based_mis.hpp:50-55. -/
def storeDegree (degrees : List Nat) (e : Nat × Nat) : Res (List Nat) := vset degrees e.1 e.2

/-- One edge; the state is `predecessor_list` and `successor_list`: dag_based_mis.hpp:60-76. -/
def addEdge (degrees : List Nat) (s : List (List Nat) × List (List Nat)) (e : Nat × Nat × Unit) : Res (List (List Nat) × List (List Nat)) := do
  let v := e.1
  let u := e.2.1
  let dv ← vget degrees v
  let du ← vget degrees u
  if dv > du then
    let succ ← pushAt s.2 v u
    let pred ← pushAt s.1 u v
    return (pred, succ)
  else if dv < du then
    let pred ← pushAt s.1 v u
    let succ ← pushAt s.2 u v
    return (pred, succ)
  else if v > u then
    let pred ← pushAt s.1 v u
    let succ ← pushAt s.2 u v
    return (pred, succ)
  else
    let succ ← pushAt s.2 v u
    let pred ← pushAt s.1 u v
    return (pred, succ)

/-- The roots are put in the set: dag_based_mis.hpp:78-86. -/
def addRoot (pred : List (List Nat)) (mis : List Bool) (vtx : Nat) : Res (List Bool) := do
  let p ← vget pred vtx
  if p.length = 0 then vset mis vtx true else return mis

/-- One edge of the `dag_range`: dag_based_mis.hpp:88-93. -/
def exclude (mis : List Bool) (e : Nat × Nat × Bool) : Res (List Bool) := do
  let b ← vget mis e.1
  if b = true then vset mis e.2.1 false else return mis

/-- `dag_based_mis(A, mis)`: dag_based_mis.hpp:36-96.  The ranges are iterated first and their elements processed afterwards, which is the same because the loop
bodies change nothing the ranges read.  `ready0` is the value of the flag of `dag_range` before it is first assigned. -/
def dagMis (g : Rows Unit) (ready0 : Bool) (mis : List Bool) : Run (List Bool) := do
  let n := g.length
  let ds ← Run.loop (degreeIter (vget g) n).body (0, [])
  let degrees ← Run.lift (ds.foldlM storeDegree (List.replicate n 0))
  let p ← Run.lift (edgeStart (vget g) 0 n)
  let es ← Run.loop (edgeIter (vget g) n).body (p, [])
  let s ← Run.lift (es.foldlM (addEdge degrees) (List.replicate n [], List.replicate n []))
  let mis ← Run.lift ((List.range n).foldlM (addRoot s.1) mis)
  let st ← Run.lift (DagRange.start s.1 s.2 n ready0)
  let out ← Run.loop (DagRange.round s.1 s.2) (st, [])
  Run.lift (out.foldlM exclude mis)

end NW.DagMis
