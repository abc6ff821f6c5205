import Verif.Spec.Flow

/-!
# Networks with a number for every vertex

A positive number of a vertex is the capacity of an arc from the source to it, a negative one the capacity of an arc from it to the terminal.  The vertices of the graph are the numbers
below `g.length`; the source is `g.length`, the terminal `g.length + 1`.
-/

namespace NW.Spec

variable {R : Type} [CommRing R] [LinearOrder R]

/-- Every edge has an edge in the opposite direction. -/
def Symm {β : Type} (g : Rows β) : Prop := ∀ u v, Edge g u v → Edge g v u

instance {β : Type} (g : Rows β) : Decidable (Symm g) :=
  decidable_of_iff (∀ u, u < g.length → ∀ v ∈ nbrs g u, Edge g v u) ⟨fun h u v e => h u e.src_lt v e, fun h u _ v e => h u v e⟩

/-- The capacities of the network with the two terminals. -/
def terminalCap (g : Rows R) (cap : List R) (u v : Nat) : R :=
  if u < g.length ∧ v < g.length then arc g id u v
  else if u = g.length ∧ v < g.length then max (cap.getD v 0) 0
  else if u < g.length ∧ v = g.length + 1 then max (- cap.getD u 0) 0
  else 0

/-- The capacity into the terminal. -/
def terminalTotal (g : Rows R) (cap : List R) : R := ∑ v ∈ Finset.range g.length, max (- cap.getD v 0) 0

end NW.Spec
