import Verif.Spec.Walk
import Mathlib.Data.Rat.Defs
import Mathlib.Algebra.Field.Rat

/-!
# Specification: shortest paths and betweenness

A path is the list of the vertices it visits.  Parallel edges give as many (equal) paths.
-/

namespace NW.Spec

variable {α : Type}

/-- All walks of `k` edges from `s`. -/
def walksFrom (g : Rows α) : Nat → Nat → List (List Nat)
  | 0, s => [[s]]
  | k + 1, s => (nbrs g s).flatMap fun u => (walksFrom g k u).map (s :: ·)

/-- All walks of `k` edges from `s` to `t`. -/
def paths (g : Rows α) (k s t : Nat) : List (List Nat) := (walksFrom g k s).filter fun p => p.getLast? = some t

/-- All shortest paths from `s` to `t`: the walks of the least length for which there are any. -/
def shortestPaths (g : Rows α) (s t : Nat) : List (List Nat) :=
  (((List.range g.length).map fun k => paths g k s t).find? fun l => !l.isEmpty).getD []

/-- The fraction of the shortest paths from `s` to `t` that pass through `v` (0 if there are none). -/
def throughFraction (g : Rows α) (s t v : Nat) : ℚ :=
  (((shortestPaths g s t).filter fun p => v ∈ p).length : ℚ) / ((shortestPaths g s t).length : ℚ)

/-- The dependency of `s` on `v`: the sum of these fractions over all targets other than `v`. -/
def dependency (g : Rows α) (s v : Nat) : ℚ :=
  (((List.range g.length).filter fun t => t ≠ v).map fun t => throughFraction g s t v).sum

/-- Betweenness of `v` with respect to the given sources. -/
def betweenness (g : Rows α) (sources : List Nat) (v : Nat) : ℚ :=
  ((sources.filter fun s => s ≠ v).map fun s => dependency g s v).sum

end NW.Spec
