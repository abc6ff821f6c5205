import Verif.Model.DagMis
import Verif.Model.Csr

/-!
# Model of experimental/algorithms/jones_plassmann_coloring.hpp

The degrees and the lists of predecessors and successors are computed as in dag_based_mis.hpp.  Simplification: the 64-bit colours, counters and vertex numbers are natural numbers.
-/

namespace NW.JonesExp
open Spec Ranges

/-- `pred_colors[u][c]++`: experimental jones_plassmann_coloring.hpp:95, 131. -/
def bump (pc : List (List Nat)) (u c : Nat) : Res (List (List Nat)) := do
  let r ← vget pc u
  let x ← vget r c
  let r ← vset r c (x + 1)
  vset pc u r

/-- One vertex of the loop over the roots; the state is `colors` and `pred_colors`: experimental jones_plassmann_coloring.hpp:86-98. -/
def rootStep (pred succ : List (List Nat)) (s : List Nat × List (List Nat)) (vtx : Nat) : Res (List Nat × List (List Nat)) := do
  let p ← vget pred vtx
  if p.length = 0 then
    let colors ← vset s.1 vtx 0
    let su ← vget succ vtx
    let pc ← su.foldlM (fun pc u => bump pc u 0) s.2
    return (colors, pc)
  else return s

/-- The search for a counter that is zero; the colour is the value of the counter (not its index): experimental jones_plassmann_coloring.hpp:109-115. -/
def minColor (d : Nat) : List Nat → Nat
  | [] => d
  | x :: l => if x = 0 then x else minColor d l

/-- One element of the `dag_range`: experimental jones_plassmann_coloring.hpp:100-135. -/
def dagStep (srt : List Nat → List Nat) (pred succ : List (List Nat)) (s : List Nat × List (List Nat)) (e : Nat × Nat × Bool) : Res (List Nat × List (List Nat)) := do
  if e.2.2 = true then
    let u := e.2.1
    let r ← vget s.2 u
    let pc ← vset s.2 u (srt r)
    let p ← vget pred u
    let c := minColor p.length (srt r)
    let colors ← vset s.1 u c
    let su ← vget succ u
    let pc ← su.foldlM (fun pc w => do
      let pw ← vget pred w
      if c < pw.length then bump pc w c else return pc) pc
    return (colors, pc)
  else return s

/-- `jones_plassmann_coloring2(A, colors)`: experimental jones_plassmann_coloring.hpp:37-144.  As in `dagMis` the ranges are iterated first and their elements processed afterwards. -/
def coloring2 (srt : List Nat → List Nat) (g : Rows Unit) (ready0 : Bool) (colors : List Nat) : Run (List Nat) := do
  let n := g.length
  let ds ← Run.loop (degreeIter (vget g) n).body (0, [])
  let degrees ← Run.lift (ds.foldlM DagMis.storeDegree (List.replicate n 0))
  let p ← Run.lift (edgeStart (vget g) 0 n)
  let es ← Run.loop (edgeIter (vget g) n).body (p, [])
  let s ← Run.lift (es.foldlM (DagMis.addEdge degrees) (List.replicate n [], List.replicate n []))
  let s2 ← Run.lift ((List.range n).foldlM (rootStep s.1 s.2) (colors, s.1.map fun l => List.replicate l.length 0))
  let st ← Run.lift (DagRange.start s.1 s.2 n ready0)
  let out ← Run.loop (DagRange.round s.1 s.2) (st, [])
  let s3 ← Run.lift (out.foldlM (dagStep srt s.1 s.2) s2)
  return s3.1

end NW.JonesExp
