import Verif.Spec.Graph
import Verif.Spec.Triangles

/-! # Specification: the simple graph under a list of undirected edges -/

namespace NW.Spec
variable {α : Type}

/-- `u` and `v` are different and some edge of the list joins them, whichever end comes first. -/
def JoinedBy (es : List (Nat × Nat × α)) (u v : Nat) : Prop := u ≠ v ∧ ∃ x ∈ es, (x.1 = u ∧ x.2.1 = v) ∨ (x.1 = v ∧ x.2.1 = u)

instance (es : List (Nat × Nat × α)) : DecidableRel (JoinedBy es) := fun u v => inferInstanceAs (Decidable (_ ∧ ∃ x ∈ es, _))

theorem JoinedBy.symm {es : List (Nat × Nat × α)} {u v : Nat} (h : JoinedBy es u v) : JoinedBy es v u := ⟨h.1.symm, h.2.imp fun _ hx => ⟨hx.1, hx.2.symm⟩⟩

/-- The triangles of the simple graph on `n` vertices under the edges: loops and repetitions do not count. -/
def edgeTriangles (n : Nat) (es : List (Nat × Nat × α)) : Finset (Finset Nat) := triangles n (JoinedBy es)

end NW.Spec
