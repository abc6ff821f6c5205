import Mathlib.Logic.Relation
import Mathlib.Data.List.Basic

/-!
# Directed acyclic graphs given by predecessor and successor lists
-/

namespace NW.Spec

/-- `w` is a successor of `u`. -/
def Arc (succ : List (List Nat)) (u w : Nat) : Prop := w ∈ succ.getD u []

instance (succ : List (List Nat)) (u w : Nat) : Decidable (Arc succ u w) := inferInstanceAs (Decidable (w ∈ succ.getD u []))

/-- All edges, as often as they are stored. -/
def arcs (succ : List (List Nat)) : List (Nat × Nat) := (List.range succ.length).flatMap fun u => (succ.getD u []).map fun w => (u, w)

/-- Consistent lists of an acyclic graph: `u` is listed as a predecessor of `w` as often as `w` is listed as a successor of `u`. -/
structure Dag (pred succ : List (List Nat)) : Prop where
  len : pred.length = succ.length
  inRange : ∀ u w, Arc succ u w → w < succ.length
  consistent : ∀ u w, (pred.getD w []).count u = (succ.getD u []).count w
  acyclic : ∀ v, ¬ Relation.TransGen (Arc succ) v v

end NW.Spec
