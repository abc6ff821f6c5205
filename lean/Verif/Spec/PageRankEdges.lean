import Mathlib.Algebra.Order.Field.Rat
import Mathlib.Algebra.BigOperators.Group.List.Basic

/-!
# PageRank of a list of edges

Every vertex receives a share of the score of each vertex with an edge to it; a vertex divides its score equally among the edges that leave it.  Parallel edges count separately.
-/

namespace NW.Spec

variable {α : Type}

/-- The number of edges that leave `j`. -/
def outDegree (es : List (Nat × Nat × α)) (j : Nat) : Nat := es.countP fun e => decide (e.1 = j)

/-- The PageRank equations of the edges `es` between the vertices below `n`, with damping factor `d`. -/
def EdgesPageRank (es : List (Nat × Nat × α)) (n : Nat) (d : ℚ) (p : Nat → ℚ) : Prop :=
  ∀ i, i < n → p i = (1 - d) / n + d * ((es.filter fun e => decide (e.2.1 = i)).map fun e => p e.1 / outDegree es e.1).sum

end NW.Spec
