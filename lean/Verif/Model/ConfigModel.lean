import Verif.Run

/-!
# Model: generators/configuration_model.hpp

The header does not compile as it stands (the declaration of `power_law_gen` in line 72 has no body and no comma); this is the function `configuration_model` on its own.
-/

namespace NW.ConfigModel

/-- One round of the loop of `populate_stubs`: configuration_model.hpp:99-105.  The end of the range to fill is computed from the cursor that has already moved.  Positions
beyond the end of `stubs` are out of bounds. -/
def fillStep (s : List Nat × Nat) (x : Nat × Nat) : Res (List Nat × Nat) :=
  let (stubs, cursor) := s
  let first := cursor
  let cursor := cursor + x.1
  let last := first + cursor
  if last ≤ stubs.length then
    return (stubs.take first ++ List.replicate (last - first) x.2 ++ stubs.drop last, cursor)
  else .error .outOfBounds

/-- `populate_stubs`: configuration_model.hpp:96-107.  The second argument is `suma`. -/
def populate (degrees : List Nat) (total : Nat) : Res (List Nat) := do
  let r ← degrees.zipIdx.foldlM fillStep (List.replicate total 0, 0)
  return r.1

/-- `configuration_model`: configuration_model.hpp:85-126.  `std::shuffle` yields any permutation.  The edge list is the list of its edges, the printing is left out, and so is
`contiguous_id_space`, which the code does not use. -/
def configurationModel (a b : List Nat) : Run (List (Nat × Nat)) := do
  if a.sum ≠ b.sum then return []
  else do
    let astubs ← Run.lift (populate a a.sum)
    let bstubs ← Run.lift (populate b a.sum)
    let astubs ← Run.choose (fun (l : List Nat) => l.Perm astubs)
    let bstubs ← Run.choose (fun (l : List Nat) => l.Perm bstubs)
    return astubs.zip bstubs

end NW.ConfigModel
