import Verif.Spec.Walk
import Mathlib.Data.Rat.Floor

/-!
# Model of `reverse_path` (adaptors/reverse.hpp) and `random_range` (adaptors/random_range.hpp)
-/

namespace NW.PathRanges
open Spec

variable {α : Type}

/-- A loop over a `reverse_path`: the iterator's `curr_`, the range's flag `done`, and what has been delivered: reverse.hpp:32-43. -/
structure RSt where
  curr : Nat
  done : Bool
  out : List Nat

/-- One round: `it != end()` (reverse.hpp:62), `*it` (54), `++it` (45-52).  `pred` holds the predecessors of the path edges. -/
def rRound (pred : List Nat) (stop : Nat) (st : RSt) : Res (RSt ⊕ RSt) :=
  if st.done then return .inr st
  else do
    let c ← vget pred st.curr
    return .inl { curr := c, done := if c = stop then true else st.done, out := st.out ++ [st.curr] }

/-- The flag of a fresh range: reverse.hpp:33. -/
def fresh : Bool := false

/-- `begin()` of a range with the given flag, which is not reset: reverse.hpp:43, 65. -/
def rStart (first : Nat) (done : Bool) : RSt := { curr := first, done := done, out := [] }

/-- A loop over a `random_range`: `current_vertex`, `length_`, the number of dice thrown, and what has been delivered: random_range.hpp:39-40. -/
structure WSt where
  cur : Nat
  left : Nat
  throws : Nat
  out : List Nat

/-- One round: `it != end()` (random_range.hpp:63), `*it` (58), `++it` (46-56).  `dice i` is the i-th number drawn; `pick` is computed without rounding.  Without neighbours `u_begin[0]` is read. -/
def wRound (g : Rows α) (dice : Nat → ℚ) (st : WSt) : Res (WSt ⊕ List Nat) :=
  if st.left = 0 then return .inr st.out
  else do
    let row ← vget g st.cur
    let x ← vget row (⌊(row.length : ℚ) * dice st.throws⌋).toNat
    return .inl { cur := x.1, left := st.left - 1, throws := st.throws + 1, out := st.out ++ [st.cur] }

/-- `begin()`: random_range.hpp:43-44. -/
def wStart (first len : Nat) : WSt := { cur := first, left := len, throws := 0, out := [] }

end NW.PathRanges
