import Verif.Spec.Walk

/-!
# Specification: depth-first search
-/

namespace NW.Spec
variable {α : Type}

/-- The first entry of the row of `v` that leads to a vertex not yet reached. -/
def fresh (g : Rows α) (reached : List Nat) (v : Nat) : Option (Nat × α) := (g.getD v []).find? fun e => decide (e.1 ∉ reached)

/-- From the vertices `reached`, the latest first, a depth-first search goes along the edges `es`: it always leaves the latest vertex that has a neighbour not yet reached, to the first such neighbour. -/
inductive DepthFirst (g : Rows α) : List Nat → List (Nat × Nat × α) → Prop
  | done {reached : List Nat} (h : ∀ v ∈ reached, fresh g reached v = none) : DepthFirst g reached []
  | step {later : List Nat} {v : Nat} {earlier : List Nat} {e : Nat × α} {es : List (Nat × Nat × α)}
      (hl : ∀ u ∈ later, fresh g (later ++ v :: earlier) u = none) (hv : fresh g (later ++ v :: earlier) v = some e)
      (h : DepthFirst g (e.1 :: (later ++ v :: earlier)) es) : DepthFirst g (later ++ v :: earlier) ((v, e) :: es)

end NW.Spec
