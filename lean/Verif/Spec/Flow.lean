import Verif.Spec.Walk
import Mathlib.Algebra.BigOperators.Group.Finset.Basic
import Mathlib.Algebra.Order.Ring.Defs

/-!
# Flows

`c u v` is the capacity of the arc from `u` to `v` (zero if there is none), `f u v` the flow on it; the vertices are the numbers below `n`.
-/

namespace NW.Spec

variable {R : Type} [CommRing R] [LinearOrder R] [IsStrictOrderedRing R]

/-- What leaves `v` minus what enters `v`. -/
def excess (n : Nat) (f : Nat → Nat → R) (v : Nat) : R := ∑ u ∈ Finset.range n, f v u - ∑ u ∈ Finset.range n, f u v

/-- A flow from `s` to `t` within the capacities, conserved at every other vertex. -/
structure IsFlow (n : Nat) (c : Nat → Nat → R) (s t : Nat) (f : Nat → Nat → R) : Prop where
  nonneg : ∀ u v, u < n → v < n → 0 ≤ f u v
  le : ∀ u v, u < n → v < n → f u v ≤ c u v
  conserved : ∀ v, v < n → v ≠ s → v ≠ t → excess n f v = 0

/-- No flow has a larger value. -/
def IsMaxFlow (n : Nat) (c : Nat → Nat → R) (s t : Nat) (f : Nat → Nat → R) : Prop :=
  IsFlow n c s t f ∧ ∀ f', IsFlow n c s t f' → excess n f' s ≤ excess n f s

/-- The number attached to the arc from `u` to `v` in a graph without parallel arcs. -/
def arc {β : Type} (g : Rows β) (x : β → R) (u v : Nat) : R :=
  match (g.getD u []).find? (fun e => e.1 = v) with
  | some e => x e.2
  | none => 0

/-- No arc from a vertex to itself and no two arcs with the same ends. -/
def Simple {β : Type} (g : Rows β) : Prop := ∀ v, (nbrs g v).Nodup ∧ ¬ Edge g v v

instance {β : Type} (g : Rows β) : Decidable (Simple g) :=
  decidable_of_iff (∀ v, v < g.length → (nbrs g v).Nodup ∧ v ∉ nbrs g v) ⟨fun h v => by
    by_cases c : v < g.length
    · exact h v c
    · have : nbrs g v = [] := by
        unfold nbrs
        rw [List.getD_eq_getElem?_getD, List.getElem?_eq_none (by omega)]
        rfl
      unfold Edge
      rw [this]; simp, fun h v _ => h v⟩

end NW.Spec
