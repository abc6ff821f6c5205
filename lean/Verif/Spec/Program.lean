import Verif.Model.Zip

/-! # Specification: what a program on a range does to an ordinary array of elements -/

namespace NW.Spec
open NW.Zip (Prog)

variable {T ρ : Type}

/-- The program on an array. -/
def onArray : Prog T ρ → List T → Res (ρ × List T)
  | .ret r, l => .ok (r, l)
  | .read j next, l => if h : j < l.length then onArray (next l[j]) l else .error .outOfBounds
  | .write j x next, l => if j < l.length then onArray next (l.set j x) else .error .outOfBounds
  | .swap a b next, l => if h : a < l.length ∧ b < l.length then onArray next ((l.set a (l[b]'h.2)).set b (l[a]'h.1)) else .error .outOfBounds

end NW.Spec
