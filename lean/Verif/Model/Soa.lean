import Verif.Model.Zip

/-!
# Model of the operations of `struct_of_arrays` that change its columns: containers/soa.hpp

A fold expression over the columns does the same to each column; the columns are independent, so their order does not matter.  Vectors keep no capacity here.
`move(std::tuple<...>&&)` (soa.hpp:231-233) does not compile: its lambda takes elements where the tuple has vectors.
-/

namespace NW.Soa
open Zip

variable {k : Nat} {τ : Fin (k + 1) → Type}

/-- `struct_of_arrays(M)`: soa.hpp:177-178. -/
def ofSize (dflt : Tup τ) (M : Nat) : Cols τ := fun i => List.replicate M (dflt i)

/-- `struct_of_arrays()`: soa.hpp:176. -/
def empty : Cols τ := fun _ => []

/-- The constructors from vectors: soa.hpp:179-186. -/
def ofColumns (l : Cols τ) : Cols τ := l

/-- `push_back(attrs...)` and `push_back(tuple)`: soa.hpp:243-249. -/
def pushBack (c : Cols τ) (x : Tup τ) : Cols τ := fun i => c i ++ [x i]

/-- `struct_of_arrays({...})`: soa.hpp:187-189. -/
def ofList (l : List (Tup τ)) : Cols τ := l.foldl pushBack empty

/-- `push_at(i, attrs...)`: soa.hpp:251-257. -/
def pushAt (c : Cols τ) (j : Nat) (x : Tup τ) : Res (Cols τ) :=
  if ∀ i, j < (c i).length then .ok fun i => (c i).set j (x i) else .error .outOfBounds

/-- `clear()`: soa.hpp:259-261. -/
def clear (_c : Cols τ) : Cols τ := fun _ => []

/-- `resize(N)`: soa.hpp:263-265. -/
def resize (dflt : Tup τ) (c : Cols τ) (N : Nat) : Cols τ := fun i => (c i).take N ++ List.replicate (N - (c i).length) (dflt i)

/-- `reserve(N)`: soa.hpp:267-269. -/
def reserve (c : Cols τ) (_N : Nat) : Cols τ := c

/-- `move(attrs...)`: the columns are exchanged with the arguments: soa.hpp:227-229. -/
def move (c attrs : Cols τ) : Cols τ × Cols τ := (attrs, c)

/-- `copy(attrs...)`: `std::copy` onto the elements that are there: soa.hpp:235-241. -/
def copy (c attrs : Cols τ) : Res (Cols τ) :=
  if ∀ i, (attrs i).length ≤ (c i).length then .ok fun i => attrs i ++ (c i).drop (attrs i).length else .error .outOfBounds

/-- The calls that a program makes. -/
inductive Call (τ : Fin (k + 1) → Type)
  | pushBack (x : Tup τ)
  | pushAt (j : Nat) (x : Tup τ)
  | clear
  | resize (N : Nat)
  | reserve (N : Nat)
  | move (attrs : Cols τ)
  | copy (attrs : Cols τ)

/-- One call. -/
def call (dflt : Tup τ) (c : Cols τ) : Call τ → Res (Cols τ)
  | .pushBack x => .ok (pushBack c x)
  | .pushAt j x => pushAt c j x
  | .clear => .ok (clear c)
  | .resize N => .ok (resize dflt c N)
  | .reserve N => .ok (reserve c N)
  | .move attrs => .ok (move c attrs).1
  | .copy attrs => copy c attrs

end NW.Soa
