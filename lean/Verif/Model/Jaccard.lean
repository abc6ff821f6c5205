import Mathlib.Data.Rat.Defs
import Verif.Model.Triangle

/-!
# Model of algorithms/jaccard.hpp

The attribute of an edge is its score.  Scores are rational numbers; rounding of the `double` quotient is not modelled.
-/

namespace NW.Jaccard
open Spec Util Triangle

/-- The body of the inner loop for the entry at position `p` of row `u`: jaccard.hpp:51-58.  The state is the graph, whose attributes are overwritten in
place through `weight(e)`, and the counter. -/
def jaccardEntry (u : Nat) (s : Rows ℚ × Nat) (p : Nat) : Res (Rows ℚ × Nat) := do
  let row ← vget s.1 u
  let e ← vget row p
  if u < e.1 then
    let rv ← vget s.1 e.1
    let numer ← intersectionSize (ids row) (ids rv)
    let denom := row.length + rv.length - numer
    return (s.1.set u (row.set p (e.1, (numer : ℚ) / (denom : ℚ))), s.2 + 1)
  else return s

/-- `jaccard_similarity(G, weight)`: jaccard.hpp:46-63. -/
def jaccard (g : Rows ℚ) : Res (Rows ℚ × Nat) :=
  (List.range g.length).foldlM (init := (g, 0)) fun s u => do
    let row ← vget s.1 u
    (List.range row.length).foldlM (init := s) (jaccardEntry u)

end NW.Jaccard
