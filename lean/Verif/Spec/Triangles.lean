import Mathlib.Data.Finset.Powerset
import Verif.Spec.Walk

/-! # Specification: triangles of a simple graph -/

namespace NW.Spec

/-- The triangles of the graph with vertices below `n` and adjacency `Adj`: the sets of three vertices that are pairwise adjacent. -/
def triangles (n : Nat) (Adj : Nat → Nat → Prop) [DecidableRel Adj] : Finset (Finset Nat) :=
  ((Finset.range n).powersetCard 3).filter fun s => ∀ a ∈ s, ∀ b ∈ s, a ≠ b → Adj a b

/-- `g` lists, for each vertex, the adjacent vertices with a larger number, in increasing order. -/
structure Upper {α : Type} (g : Rows α) (Adj : Nat → Nat → Prop) : Prop where
  sorted : ∀ u, (nbrs g u).Pairwise (· < ·)
  edges : ∀ u v, Edge g u v ↔ u < v ∧ v < g.length ∧ Adj u v

/-- `g` lists, for each vertex, the adjacent vertices with a smaller number, in increasing order. -/
structure Lower {α : Type} (g : Rows α) (Adj : Nat → Nat → Prop) : Prop where
  sorted : ∀ u, (nbrs g u).Pairwise (· < ·)
  edges : ∀ u v, Edge g u v ↔ v < u ∧ u < g.length ∧ Adj u v

end NW.Spec
