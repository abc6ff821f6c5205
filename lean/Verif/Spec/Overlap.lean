import Verif.Spec.Graph

/-!
# Specification: how much two rows of a list of edges have in common
-/

namespace NW.Spec

/-- The number of pairs of entries of the list, one with first number `i` and one with first number `j`, that have the same second number.  If no entry occurs twice it is
the number of second numbers that `i` and `j` have in common. -/
def shared {α : Type} (es : List (Nat × Nat × α)) (i j : Nat) : Nat :=
  ((es.filter fun e => decide (e.1 = i)).map fun e => (es.filter fun f => decide (f.1 = j) && decide (f.2.1 = e.2.1)).length).sum

end NW.Spec
