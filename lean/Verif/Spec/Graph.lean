/-!
# Specification vocabulary: a graph as a list of edges

An edge list is a `List (Nat × Nat × α)` of (source, target, attributes).
-/

namespace NW.Spec
variable {α : Type}

/-- The edges leaving `u`, as (target, attributes). -/
def outEdges (es : List (Nat × Nat × α)) (u : Nat) : List (Nat × α) :=
  (es.filter fun x => decide (x.1 = u)).map fun x => (x.2.1, x.2.2)

/-- The edges entering `u`, as (source, attributes). -/
def inEdges (es : List (Nat × Nat × α)) (u : Nat) : List (Nat × α) :=
  (es.filter fun x => decide (x.2.1 = u)).map fun x => (x.1, x.2.2)

/-- All endpoints are below `n`. -/
def EndpointsBelow (n : Nat) (es : List (Nat × Nat × α)) : Prop := ∀ x ∈ es, x.1 < n ∧ x.2.1 < n

/-- Exchanging source and target. -/
def flipEdge (x : Nat × Nat × α) : Nat × Nat × α := (x.2.1, x.1, x.2.2)

/-- The edges touching `u`, in order, as (other endpoint, attributes); a self loop appears twice. -/
def incident (es : List (Nat × Nat × α)) (u : Nat) : List (Nat × α) :=
  es.flatMap fun x =>
    (if x.1 = u then [(x.2.1, x.2.2)] else []) ++ (if x.2.1 = u then [(x.1, x.2.2)] else [])

end NW.Spec
