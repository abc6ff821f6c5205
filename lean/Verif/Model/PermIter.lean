import Verif.Iter

/-!
# Model of permutation_iterator (util/permutation_iterator.hpp)

The line numbers are those of permutation_iterator.hpp.  The base iterator is a position in a vector; `difference_type` does not overflow.
-/

namespace NW.PermIter

/-- The iterator: 34-41. -/
structure It where
  base : Int
  perm : Int → Int
  i : Int

variable {α : Type}

/-- `*p` for a position `p` in the vector. -/
def at' (v : List α) (p : Int) : Res α := if 0 ≤ p then vget v p.toNat else .error .outOfBounds

/-- `operator*`: 43. -/
def deref (v : List α) (it : It) : Res α := at' v (it.base + it.perm it.i)

/-- `*it = x`, the reference that `operator*` returns: 43. -/
def store (v : List α) (it : It) (x : α) : Res (List α) :=
  let p := it.base + it.perm it.i
  if 0 ≤ p then vset v p.toNat x else .error .outOfBounds

/-- `operator++`: 45-48. -/
def next (it : It) : It := { it with i := it.i + 1 }

/-- `operator!=`: 50. -/
def ne (a b : It) : Bool := decide (a.i ≠ b.i) || decide (a.base ≠ b.base)

/-- The loop `for (; it != last; ++it)` that reads `*it`. -/
def range (v : List α) (last : It) : Iter It α where
  atEnd it := .ok (!ne it last)
  deref it := deref v it
  next it := .ok (next it)

/-- `std::copy(xs.begin(), xs.end(), it)`. -/
def copyTo (v : List α) (it : It) (xs : List α) : Res (List α × It) :=
  xs.foldlM (fun s x => do
    let v ← store s.1 s.2 x
    return (v, next s.2)) (v, it)

end NW.PermIter
