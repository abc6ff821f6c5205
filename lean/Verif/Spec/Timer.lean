import Verif.Spec.MatrixMarket
import Mathlib.Data.Rat.Defs

/-!
# Specification: timers and printed numbers
-/

namespace NW.Spec

/-- What happens to a timer, with the time shown by the clock. -/
inductive TimerEvent
  | start (now : Int)
  | stop (now : Int)
  deriving DecidableEq

/-- `b` is the time of the last start in the history, or that of the construction. -/
def LastStart (made : Int) (h : List TimerEvent) (b : Int) : Prop :=
  (b = made ∧ ∀ t, .start t ∉ h) ∨ ∃ h1 h2, h = h1 ++ .start b :: h2 ∧ ∀ t, .start t ∉ h2

/-- `e` is the time of the last stop in the history, or that of the construction. -/
def LastStop (made : Int) (h : List TimerEvent) (e : Int) : Prop :=
  (e = made ∧ ∀ t, .stop t ∉ h) ∨ ∃ h1 h2, h = h1 ++ .stop e :: h2 ∧ ∀ t, .stop t ∉ h2

/-- `n` is the number of whole units in a time `d` that is not negative. -/
def WholeUnits (unit d n : Int) : Prop := n * unit ≤ d ∧ d < (n + 1) * unit

/-- The text is a number in scientific notation with a positive exponent, as `1.5e+06`, or a decimal numeral; its value is `v`. -/
def Says (t : List Char) (v : ℚ) : Prop :=
  (∃ n : Nat, Numeral t n ∧ v = n) ∨
  ∃ (a : Char) (b x : List Char) (m k : Nat), t = a :: (if b = [] then [] else '.' :: b) ++ ['e', '+'] ++ x ∧ Numeral (a :: b) m ∧ Numeral x k ∧ v = m * 10 ^ k / 10 ^ b.length

end NW.Spec
