import Verif.Spec.Graph
import Verif.Spec.Components
import Mathlib.Data.Finset.Image
import Mathlib.Data.Finset.Range
import Mathlib.Data.Finset.Card

/-! # Specification: the components of a list of edges, and their sizes -/

namespace NW.Spec
variable {α : Type}

/-- The list has an edge from `u` to `v`. -/
def Listed (es : List (Nat × Nat × α)) (u v : Nat) : Prop := ∃ a, (u, v, a) ∈ es

open Classical in
/-- The vertices below `n` connected to `x`, edges being used in either direction. -/
noncomputable def component (R : Nat → Nat → Prop) (n x : Nat) : Finset Nat := (Finset.range n).filter (Conn R x)

open Classical in
/-- The connected components of the vertices below `n`. -/
noncomputable def components (R : Nat → Nat → Prop) (n : Nat) : Finset (Finset Nat) := (Finset.range n).image (component R n)

/-- Their sizes, each as often as it occurs. -/
noncomputable def componentSizes (R : Nat → Nat → Prop) (n : Nat) : Multiset Nat := (components R n).val.map Finset.card

/-- `top` lists the `k` largest of the numbers `s` (all of them if there are not so many), the largest first. -/
def Largest (k : Nat) (s : Multiset Nat) (top : List Nat) : Prop :=
  ∃ rest : Multiset Nat, s = (top : Multiset Nat) + rest ∧ top.length = min k s.card ∧ top.Pairwise (· ≥ ·) ∧ ∀ a ∈ top, ∀ b ∈ rest, b ≤ a

end NW.Spec
