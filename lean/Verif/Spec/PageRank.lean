import Verif.Spec.Walk
import Mathlib.Data.Rat.Defs
import Mathlib.Algebra.Order.Field.Rat
import Mathlib.Algebra.Order.Ring.Abs

/-!
# PageRank

Row `i` lists the vertices that link to `i`; `deg j` is the number of links of `j`.
-/

namespace NW.Spec

variable {α : Type}

/-- How often `j` is listed in all rows, i.e. the number of links of `j`. -/
def listed (g : Rows α) (j : Nat) : Nat := (g.flatten.map Prod.fst).count j

/-- The PageRank equations with damping factor `d`. -/
def IsPageRank (g : Rows α) (deg : Nat → Nat) (d : ℚ) (p : Nat → ℚ) : Prop :=
  ∀ i, i < g.length → p i = (1 - d) / g.length + d * ((nbrs g i).map fun j => p j / deg j).sum

/-- `x` agrees with `p` up to the relative error `e`. -/
def Close (n : Nat) (p : Nat → ℚ) (e : ℚ) (x : List ℚ) : Prop := x.length = n ∧ ∀ i y, x[i]? = some y → |y - p i| ≤ e * p i

end NW.Spec
