import Verif.Spec.Walk

/-!
# Independent sets of a graph whose edges may be stored in one direction only
-/

namespace NW.Spec

variable {α : Type}

/-- Joined by an edge stored in either direction. -/
def Joined (g : Rows α) (u v : Nat) : Prop := Edge g u v ∨ Edge g v u

/-- The number of entries stored for `v`. -/
def storedDegree (g : Rows α) (v : Nat) : Nat := (nbrs g v).length

/-- `u` comes before `v`: it has the higher degree, or the same degree and the smaller number. -/
def Before (g : Rows α) (u v : Nat) : Prop := storedDegree g v < storedDegree g u ∨ (storedDegree g u = storedDegree g v ∧ u < v)

instance (g : Rows α) (u v : Nat) : Decidable (Joined g u v) := inferInstanceAs (Decidable (v ∈ nbrs g u ∨ u ∈ nbrs g v))
instance (g : Rows α) (u v : Nat) : Decidable (Before g u v) := inferInstanceAs (Decidable (_ ∨ (_ ∧ _)))

/-- No two members are joined. -/
def Independent (g : Rows α) (S : Nat → Prop) : Prop := ∀ u v, S u → S v → ¬ Joined g u v

/-- Every other vertex is joined to a member. -/
def Dominating (g : Rows α) (S : Nat → Prop) : Prop := ∀ v, v < g.length → ¬ S v → ∃ u, S u ∧ Joined g u v

end NW.Spec
