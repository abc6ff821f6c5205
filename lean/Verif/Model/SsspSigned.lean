import Verif.Model.ApbDijkstra
import Verif.Model.Sssp

/-!
# Model of algorithms/dijkstra.hpp and of the sequential algorithms/delta_stepping.hpp with a signed distance type

Weights are integers of any sign and sums are exact (a signed overflow, which is undefined, is not modelled).  `size_t` has `w` bits.
-/

namespace NW.SsspSigned
open Spec

/-- `dijkstra(graph, source, weight)`: dijkstra.hpp:77-115; `inf` is the maximum of the *vertex* type.  The loop, 100-113, is the one of the example, `ApbDijkstra.Step`:
the queue hands out any entry, its vertex is scanned, improved vertices are pushed with their new distance. -/
def dijkstra (g : Rows Int) (wt : Nat × Int → Int) (inf : Int) (source : Nat) : Run (List Int) := do
  Run.lift (check (source < g.length))
  let dist ← Run.lift (vset (List.replicate g.length inf) source 0)
  let d ← Run.lift (vget dist source)
  let st ← (Runs (ApbDijkstra.Step g wt) (dist, [(source, d)]) : Run ApbDijkstra.State)
  return st.1

/-- The conversion to `size_t`. -/
def toSize (w : Nat) (x : Int) : Nat := (x % 2 ^ w).toNat

/-- `bins.resize(n)`; with more than `cap` elements it throws, which nobody catches. -/
def resize (cap n : Nat) (bins : List (List Nat)) : Res (List (List Nat)) :=
  if n > cap then .error .terminated else return bins.take n ++ List.replicate (n - bins.length) []

/-- Into the bin of the new distance: delta_stepping.hpp:124-128.  The quotient of integers is rounded towards zero. -/
def pushBin (w cap : Nat) (delta : Int) (j : Nat) (nd : Int) (bins : List (List Nat)) : Res (List (List Nat)) :=
  if delta = 0 then .error .divByZero
  else do
    let dest := toSize w (nd.tdiv delta)
    let bins' ← if dest ≥ bins.length then resize cap ((dest + 1) % 2 ^ w) bins else pure bins
    let b ← vget bins' dest
    vset bins' dest (b ++ [j])

/-- `relax`: delta_stepping.hpp:120-130. -/
def relax (w cap : Nat) (delta : Int) (wt : Nat × Int → Int) (i : Nat) (st : List Int × List (List Nat)) (e : Nat × Int) : Res (List Int × List (List Nat)) := do
  let di ← vget st.1 i
  let dj ← vget st.1 e.1
  if di + wt e < dj then
    let dist ← vset st.1 e.1 (di + wt e)
    let bins ← pushBin w cap delta e.1 (di + wt e) st.2
    return (dist, bins)
  else return st

/-- The body for one frontier vertex: delta_stepping.hpp:139-148.  `delta * top_bin` is of type `size_t`, and the distance is converted for the comparison. -/
def sVertex (w cap : Nat) (g : Rows Int) (wt : Nat × Int → Int) (delta : Int) (top : Nat) (st : List Int × List (List Nat)) (i : Nat) : Res (List Int × List (List Nat)) := do
  let di ← vget st.1 i
  if toSize w di ≥ toSize w (delta * top) then
    let r ← vget g i
    r.foldlM (relax w cap delta wt i) st
  else return st

/-- One round: delta_stepping.hpp:134-153. -/
def sBody (w cap : Nat) (g : Rows Int) (wt : Nat × Int → Int) (delta : Int) (s : List Int × List (List Nat) × Nat) : Res ((List Int × List (List Nat) × Nat) ⊕ List Int) :=
  match s with
  | (dist, bins, top) =>
    if top < bins.length then do
      let frontier ← vget bins top
      let bins' ← vset bins top []
      let st ← frontier.foldlM (sVertex w cap g wt delta top) (dist, bins')
      return .inl (st.1, st.2, Sssp.skipEmpty st.2 top)
    else return .inr dist

/-- `delta_stepping(graph, source, delta, weight)` ends with `o`: delta_stepping.hpp:109-156. -/
def Delta (w cap : Nat) (g : Rows Int) (wt : Nat × Int → Int) (inf delta : Int) (source : Nat) (o : Res (List Int)) : Prop :=
  match vset (List.replicate g.length inf) source 0 with
  | .error f => o = .error f
  | .ok dist => Loop (sBody w cap g wt delta) (dist, [[source]], 0) o

end NW.SsspSigned
