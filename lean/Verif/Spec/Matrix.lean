import Verif.Spec.Walk
import Mathlib.Algebra.BigOperators.Group.Finset.Defs

/-! # Specification: sparse matrices -/

namespace NW.Spec

/-- The value of a sparse matrix at row `i`, column `j`: the sum of the values stored there, zero if there are none. -/
def entry {γ : Type} [AddMonoid γ] (A : Rows γ) (i j : Nat) : γ := (((A.getD i []).filter fun e => e.1 == j).map Prod.snd).sum

end NW.Spec
