import Verif.Spec.Timer
import Verif.Model.MatrixMarket
import Mathlib.Data.Nat.Log

/-!
# Model of util/timer.hpp

A time is a number of ticks of `system_clock`.  `elapsed` and `lap` return a `double`, which holds the number exactly below 2^53; the model has the number itself.
-/

namespace NW.Timer
open Spec MM

/-- `start_time` and `stop_time`: timer.hpp:41. -/
structure St where
  start : Int
  stop : Int
  deriving DecidableEq

/-- The constructor: timer.hpp:30. -/
def make (now : Int) : St := ⟨now, now⟩

/-- `start()` and `stop()`: timer.hpp:32-33. -/
def apply (s : St) : TimerEvent → St
  | .start now => { s with start := now }
  | .stop now => { s with stop := now }

/-- `elapsed()`; `unit` is the number of ticks in a `D`, and `duration_cast` rounds towards zero: timer.hpp:34. -/
def elapsed (unit : Int) (s : St) : Int := (s.stop - s.start).tdiv unit

/-- `lap()`: timer.hpp:35. -/
def lap (unit : Int) (s : St) (now : Int) : St × Int :=
  let s := apply s (.stop now)
  (s, (s.stop - s.start).tdiv unit)

/-- `n / p` rounded to the nearest whole number, to the even one if there are two. -/
def nearest (n p : Nat) : Nat :=
  if 2 * (n % p) < p then n / p else if p < 2 * (n % p) then n / p + 1 else if n / p % 2 = 0 then n / p else n / p + 1

/-- The digits of a number of six digits. -/
def six (m : Nat) : List Char := [m / 100000 % 10, m / 10000 % 10, m / 1000 % 10, m / 100 % 10, m / 10 % 10, m % 10].map fun d => Char.ofNat (48 + d)

/-- The digits after the first, without zeros at the end. -/
def strip (ds : List Char) : List Char := (ds.reverse.dropWhile (· == '0')).reverse

/-- `1.5e+06`, for the six digits `m` and the exponent `x`. -/
def scientific (m x : Nat) : List Char :=
  match six m with
  | [] => []
  | a :: ds => a :: (if strip ds = [] then [] else '.' :: strip ds) ++ ['e', '+'] ++ (if x < 10 then '0' :: showNat x else showNat x)

/-- What `os << x` prints for a `double` that is a whole number, by default, that is, with six digits as `%g`. -/
def showG (n : Nat) : List Char :=
  if n < 10 ^ 6 then showNat n
  else
    let d := Nat.log 10 n - 5
    let m := nearest n (10 ^ d)
    if m = 10 ^ 6 then scientific (10 ^ 5) (d + 6) else scientific m (d + 5)

/-- The same, with a sign. -/
def showI (x : Int) : List Char := if x < 0 then '-' :: showG x.natAbs else showG x.natAbs

/-- `os << t`; the unit is " sec", " ms" or " us": timer.hpp:72-99. -/
def print (unit : Int) (label : List Char) (name : List Char) (s : St) : List Char :=
  (if name ≠ [] then '(' :: name ++ [')', ' '] else []) ++ showI (elapsed unit s) ++ label

/-- What the destructor of a `life_timer` prints at the time `now`: timer.hpp:63-69. -/
def life (unit : Int) (name : List Char) (s : St) (now : Int) : List Char :=
  let s := apply s (.stop now)
  if name ≠ [] then "# [ ".toList ++ name ++ " ]: ".toList ++ showI (elapsed unit s) ++ " ms\n".toList else []

end NW.Timer
