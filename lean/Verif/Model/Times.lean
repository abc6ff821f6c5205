import Verif.Base
import Mathlib.Data.Rat.Defs
import Mathlib.Algebra.Order.Field.Rat
import Mathlib.Data.Prod.Lex
import Mathlib.Data.List.Lex
import Mathlib.Order.Lex

/-!
# Model of the class Times of bench/common.hpp, which collects and reports the times of the trials

Times are rationals.  The extra values of a sample are not modelled: `print` does not use them.
-/

namespace NW.Times

/-- The key of the map, `std::tuple<std::string, long, long>`: file, version, threads, compared from left to right: common.hpp:178.  The characters of the file name are numbers. -/
abbrev Key := List Nat ×ₗ ℤ ×ₗ ℤ

/-- `times_`: the entries of the map in the order of the keys: common.hpp:178. -/
abbrev Table := List (Key × List ℚ)

/-- `append(file, id, thread, trial)`: common.hpp:201-203.  `operator[]` makes an empty entry if there is none. -/
def append (k : Key) (t : ℚ) : Table → Table
  | [] => [(k, [t])]
  | (k', ts) :: m => if k < k' then (k, [t]) :: (k', ts) :: m else if k' < k then (k', ts) :: append k t m else (k', ts ++ [t]) :: m

/-- `average(times)`: common.hpp:234-240. -/
def average (times : List ℚ) : Res ℚ :=
  let total := times.foldl (fun total sample => total + sample) 0
  if times.length = 0 then .error .divByZero else .ok (total / times.length)

/-- `minmax(times)`: common.hpp:242-245: the first of the smallest and the last of the largest; the iterators may not be the end. -/
def minmax : List ℚ → Res (ℚ × ℚ)
  | [] => .error .outOfBounds
  | t :: ts => .ok (ts.foldl (fun (p : ℚ × ℚ) x => (if x < p.1 then x else p.1, if x < p.2 then p.2 else x)) (t, t))

/-- One line of the report: the key and the columns Min, Avg, Max. -/
structure Row where
  key : Key
  min : ℚ
  avg : ℚ
  max : ℚ

/-- The columns of one entry: common.hpp:221, 247-249. -/
def row (e : Key × List ℚ) : Res Row := do
  let p ← minmax e.2
  let a ← average e.2
  return ⟨e.1, p.1, a, p.2⟩

/-- The lines below the heading: common.hpp:219-230. -/
def rows (m : Table) : Res (List Row) := m.mapM row

/-- `n`, by which the first column is two wider: common.hpp:206-209. -/
def width (m : Table) : Nat := m.foldl (fun n e => Nat.max n (ofLex e.1).1.length) 4

/-- A string written with `std::setw(w) << std::left`. -/
def padded (w : Nat) (s : List Nat) : List Nat := s ++ List.replicate (w - s.length) 32

/-- The first column of all lines, the heading included: common.hpp:211, 223. -/
def firstColumn (m : Table) : List (List Nat) :=
  padded (width m + 2) ("File".toList.map Char.toNat) :: m.map fun e => padded (width m + 2) (ofLex e.1).1

end NW.Times
