import Verif.Spec.Betweenness
import Mathlib.Algebra.Order.Field.Rat

/-!
# Betweenness of a list of edges

The graph of a list of edges, and scores divided by the largest one.
-/

namespace NW.Spec

variable {α : Type}

/-- The targets of the edges that leave `u`. -/
def successors (es : List (Nat × Nat × α)) (u : Nat) : List Nat := (es.filter fun e => decide (e.1 = u)).map fun e => e.2.1

/-- The graph with the vertices below `n` and the edges `es`. -/
def graphOf (es : List (Nat × Nat × α)) (n : Nat) : Rows Unit := (List.range n).map fun u => (successors es u).map fun v => (v, ())

/-- Every edge turned round. -/
def flipped (es : List (Nat × Nat × α)) : List (Nat × Nat × α) := es.map fun e => (e.2.1, e.1, e.2.2)

/-- The betweenness of every vertex with respect to the sources. -/
def edgeScores (es : List (Nat × Nat × α)) (n : Nat) (sources : List Nat) : List ℚ := (List.range n).map (betweenness (graphOf es n) sources)

/-- The scores divided by the largest one; "not a number" everywhere if that is zero. -/
def Normalised (scores : List ℚ) (r : List (Option ℚ)) : Prop :=
  ∃ b ∈ scores, (∀ y ∈ scores, y ≤ b) ∧ (b ≠ 0 → r = scores.map fun y => some (y / b)) ∧ (b = 0 → r = List.replicate scores.length none)

/-- There are fewer than `M` shortest paths from any source to any vertex. -/
def FewPaths (M : Nat) (es : List (Nat × Nat × α)) (n : Nat) (sources : List Nat) : Prop :=
  ∀ s ∈ sources, ∀ t < n, (shortestPaths (graphOf es n) s t).length < M

end NW.Spec
