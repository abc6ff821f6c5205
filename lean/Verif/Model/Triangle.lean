import Verif.Model.Util
import Verif.Spec.Walk

/-!
# Model of algorithms/triangle_count.hpp

The graph is given by its rows; counts are natural numbers (no wrap-around).
-/

namespace NW.Triangle
open Spec Util

variable {α : Type}

/-- The ids of a row. -/
def ids (row : List (Nat × α)) : List Nat := row.map Prod.fst

/-- The inner loop over one row: triangle_count.hpp:50-53. -/
def countRow (g : Rows α) (acc : Nat) (row : List (Nat × α)) : Res Nat :=
  row.foldlM (init := acc) fun acc e => do
    let r ← vget g e.1
    let k ← intersectionSize (ids row) (ids r)
    return acc + k

/-- `triangle_count(A)`: triangle_count.hpp:45-56. -/
def triangleCount (g : Rows α) : Res Nat := g.foldlM (countRow g) 0

/-- The inner loop of a worker, for the row from position `p` on: triangle_count.hpp:103-106. -/
def workerRow (g : Rows α) (acc : Nat) : List (Nat × α) → Res Nat
  | [] => return acc
  | e :: es => do
    let r ← vget g e.1
    let k ← intersectionSize (ids (e :: es)) (ids r)
    workerRow g (acc + k) es

/-- The outer loop of a worker, from row `i` on: triangle_count.hpp:102-107.  It is only called with `threads > 0`. -/
def workerFrom (g : Rows α) (threads i acc : Nat) : Res Nat :=
  if _h : 0 < threads ∧ i < g.length then do
    let row ← vget g i
    let acc ← workerRow g acc row
    workerFrom g threads (i + threads) acc
  else return acc
termination_by g.length - i
decreasing_by omega

/-- `triangle_count(G, threads)`: triangle_count.hpp:71-85, 97-109.  The workers only read shared data, and their results are added in the order of the
futures; so the order in which they run does not matter. -/
def triangleCountPar (g : Rows α) (threads : Nat) : Res Nat :=
  (List.range threads).foldlM (init := 0) fun acc tid => do
    let k ← workerFrom g threads tid 0
    return acc + k

end NW.Triangle
