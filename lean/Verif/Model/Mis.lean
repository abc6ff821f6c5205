import Verif.Base
import Verif.Spec.Walk

/-! # Model of algorithms/maximal_independent_set.hpp and algorithms/jones_plassmann_coloring.hpp -/

namespace NW.Mis
open Spec

variable {α : Type}

/-- The loop over the neighbours: maximal_independent_set.hpp:40-44. -/
def removeRow (removed : List Bool) (row : List (Nat × α)) : Res (List Bool) :=
  row.foldlM (init := removed) fun r e => vset r e.1 true

/-- One vertex: maximal_independent_set.hpp:37-46. -/
def misStep (g : Rows α) (s : List Bool × List Nat) (vtx : Nat) : Res (List Bool × List Nat) := do
  let b ← vget s.1 vtx
  if b then return s
  else
    let row ← vget g vtx
    let removed ← removeRow s.1 row
    return (removed, s.2 ++ [vtx])

/-- `maximal_independent_set(A, mis)`: maximal_independent_set.hpp:33-47; the vertices found are appended to `mis`. -/
def maximalIndependentSet (g : Rows α) (mis : List Nat) : Res (List Nat) := do
  let s ← (List.range g.length).foldlM (misStep g) (List.replicate g.length false, mis)
  return s.2

/-- The two loops placing the elements: jones_plassmann_coloring.hpp:50-56.  The state is the array and `i`. -/
def placeBody (s : List Nat × Nat) : Res ((List Nat × Nat) ⊕ List Nat) := do
  let (arr, i) := s
  if i < arr.length then
    let a ← vget arr i
    if 1 ≤ a ∧ a ≤ arr.length then
      let b ← vget arr (a - 1)
      if a ≠ b then
        let arr ← vset arr i b
        let arr ← vset arr (a - 1) a
        return .inl (arr, i)
      else return .inl (arr, i + 1)
    else return .inl (arr, i + 1)
  else return .inr arr

/-- The search for the first misplaced element: jones_plassmann_coloring.hpp:61-68. -/
def firstWrong (arr : List Nat) : Nat := (arr.zipIdx.find? fun e => e.1 ≠ e.2 + 1).elim (arr.length + 1) fun e => e.2 + 1

/-- `firstMissingPositive(arr)`: jones_plassmann_coloring.hpp:48-69. -/
def FirstMissing (arr : List Nat) (o : Res Nat) : Prop :=
  ∃ p, Loop placeBody (arr, 0) p ∧ o = p.map firstWrong

/-- The colours of the neighbours of `u`: jones_plassmann_coloring.hpp:75-78. -/
def neighborColors (g : Rows α) (colors : List Nat) (u : Nat) : Res (List Nat) := do
  let row ← vget g u
  row.mapM fun e => vget colors e.1

/-- `colors[u] = firstMissingPositive(neighbor_colors[u])` for the given vertices: jones_plassmann_coloring.hpp:73-81.
Simplification: `neighbor_colors[u]` is used in the round of `u` only, so it is a local list. -/
inductive Colour (g : Rows α) : List Nat → List Nat → Res (List Nat) → Prop
  | nil {colors : List Nat} : Colour g colors [] (.ok colors)
  | row {colors us : List Nat} {u : Nat} {f : Fault} (h : neighborColors g colors u = .error f) :
      Colour g colors (u :: us) (.error f)
  | missing {colors us arr : List Nat} {u : Nat} {f : Fault} (h : neighborColors g colors u = .ok arr)
      (hm : FirstMissing arr (.error f)) : Colour g colors (u :: us) (.error f)
  | store {colors us arr : List Nat} {u c : Nat} {f : Fault} (h : neighborColors g colors u = .ok arr)
      (hm : FirstMissing arr (.ok c)) (hs : vset colors u c = .error f) : Colour g colors (u :: us) (.error f)
  | cons {colors colors' us arr : List Nat} {u c : Nat} {o : Res (List Nat)}
      (h : neighborColors g colors u = .ok arr) (hm : FirstMissing arr (.ok c))
      (hs : vset colors u c = .ok colors') (hr : Colour g colors' us o) : Colour g colors (u :: us) o

/-- `jones_plassmann_coloring(A, colors)`: jones_plassmann_coloring.hpp:37-82. -/
def JonesPlassmann (g : Rows α) (colors : List Nat) (o : Res (List Nat)) : Prop :=
  match maximalIndependentSet g [] with
  | .error f => o = .error f
  | .ok s => Colour g (List.replicate colors.length 0) s o

end NW.Mis
