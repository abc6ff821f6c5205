import Verif.Base
import Verif.Spec.Walk

/-!
# Model of the component verifier: algorithms/connected_components.hpp:54-105
-/

namespace NW.CcVerify
open Spec

variable {α : Type}

/-- `label_to_source[l] = s`. -/
def insert (m : List (Nat × Nat)) (l s : Nat) : List (Nat × Nat) := m.filter (fun e => e.1 ≠ l) ++ [(l, s)]

/-- The map from labels to the last vertex carrying them: connected_components.hpp:57-59. -/
def labelMap (comp : List Nat) (n : Nat) : Res (List (Nat × Nat)) :=
  (List.range n).foldlM (init := []) fun m v => do
    let l ← vget comp v
    return insert m l v

/-- The loop over the neighbours of one vertex (71-79 and 82-90); `none` means `return false`.  A `push_back` beyond the reserved capacity would move
the vector under the running iterator. -/
def scan (comp : List Nat) (cap label : Nat) : List Nat → List Bool → List Nat → Res (Option (List Bool × List Nat))
  | [], vis, front => return some (vis, front)
  | v :: vs, vis, front => do
    let c ← vget comp v
    if c ≠ label then return none
    else
      let b ← vget vis v
      if b then scan comp cap label vs vis front
      else
        let vis' ← vset vis v true
        if front.length < cap then scan comp cap label vs vis' (front ++ [v]) else .error .memoryClobbered

/-- `vis` is `visited`, `front` is `frontier`, `k` the position of the iterator in it, `todo` the labels still to be searched. -/
structure State where
  vis : List Bool
  todo : List (Nat × Nat)
  label : Nat
  front : List Nat
  k : Nat

/-- One round of the search (68-92), or the start of the search for the next label (63-66), or the end (94-104). -/
def body (g t : Rows α) (comp : List Nat) (s : State) : Res (State ⊕ Bool) :=
  if s.k < s.front.length then do
    let u ← vget s.front s.k
    let row ← vget g u
    match ← scan comp (g.length + 1) s.label (row.map Prod.fst) s.vis s.front with
    | none => return .inr false
    | some (vis, front) =>
      if u < t.length then
        let trow ← vget t u
        match ← scan comp (g.length + 1) s.label (trow.map Prod.fst) vis front with
        | none => return .inr false
        | some (vis, front) => return .inl ⟨vis, s.todo, s.label, front, s.k + 1⟩
      else return .inl ⟨vis, s.todo, s.label, front, s.k + 1⟩
  else
    match s.todo with
    | [] => return .inr (s.vis.all id)
    | (l, src) :: rest => do
      let vis ← vset s.vis src true
      return .inl ⟨vis, rest, l, [src], 0⟩

/-- A search with `slots` entries of `visited`, taking the labels in the order `order`. -/
def Search (slots : Nat) (g t : Rows α) (comp : List Nat) (order : List (Nat × Nat)) (o : Res Bool) : Prop :=
  Loop (body g t comp) ⟨List.replicate slots false, order, 0, [], 0⟩ o

/-- `CCVerifier(graph, xpose, comp)`: `visited` has `graph.size() + 1` entries (60), and the unordered map is traversed in some order. -/
def Verify (g t : Rows α) (comp : List Nat) (o : Res Bool) : Prop :=
  (∃ m order, labelMap comp g.length = .ok m ∧ order.Perm m ∧ Search (g.length + 1) g t comp order o) ∨
  ∃ f, labelMap comp g.length = .error f ∧ o = .error f

end NW.CcVerify
