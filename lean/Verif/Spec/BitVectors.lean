import Verif.Base

/-!
# Specification: bit vectors as values that can be moved

A program has any number of bit vectors, named by numbers.  Each is a value of its own: what is done to one is not seen in another.
-/

namespace NW.Spec

/-- A bit vector: its number of bits, whether its bits have been given values, the bits that are one, and whether it has been moved from. -/
structure Bits where
  size : Nat
  ready : Bool
  mem : Nat → Bool
  moved : Bool

/-- What remains of a bit vector that has been moved from: no bits. -/
def Bits.gone : Bits := ⟨0, false, fun _ => false, true⟩

/-- What a program does with its bit vectors. -/
inductive BitsOp
  | construct (x n : Nat) (init : Bool)
  | moveConstruct (x y : Nat)
  | moveAssign (x y : Nat)
  | clear (x : Nat)
  | get (x i : Nat)
  | set (x i : Nat)
  | destroy (x : Nat)

/-- The bit vectors of the program. -/
abbrev Pool := Nat → Option Bits

/-- The pool in which the vector named `x` is `v`. -/
def Pool.put (s : Pool) (x : Nat) (v : Option Bits) : Pool := fun y => if y = x then v else s y

/-- The effect of an operation, with what it returns; `none` if the program may not do it: a name is used twice or without a vector, or a bit is used that is outside or has no value. -/
def BitsOp.run (s : Pool) : BitsOp → Option (Pool × Option Bool)
  | .construct x n init => if (s x).isNone then some (s.put x (some ⟨n, init, fun _ => false, false⟩), none) else none
  | .moveConstruct x y => match s x, s y with
    | none, some v => some ((s.put x (some v)).put y (some .gone), none)
    | _, _ => none
  | .moveAssign x y => match s x, s y with
    | some _, some v => some (if x = y then s else (s.put x (some v)).put y (some .gone), none)
    | _, _ => none
  | .clear x => match s x with
    | some v => some (s.put x (some ⟨v.size, true, fun _ => false, v.moved⟩), none)
    | none => none
  | .get x i => match s x with
    | some v => if i < v.size ∧ v.ready then some (s, some (v.mem i)) else none
    | none => none
  | .set x i => match s x with
    | some v => if i < v.size ∧ v.ready then some (s.put x (some ⟨v.size, v.ready, fun j => decide (j = i) || v.mem j, v.moved⟩), some (v.mem i)) else none
    | none => none
  | .destroy x => match s x with
    | some _ => some (s.put x none, none)
    | none => none

/-- A sequence of operations that the program may do, with what they return. -/
inductive BitsRuns : Pool → List BitsOp → List (Option Bool) → Pool → Prop
  | done (s : Pool) : BitsRuns s [] [] s
  | step {s s1 s2 : Pool} {op : BitsOp} {r : Option Bool} {ops : List BitsOp} {rs : List (Option Bool)} (h : op.run s = some (s1, r)) (hr : BitsRuns s1 ops rs s2) : BitsRuns s (op :: ops) (r :: rs) s2

/-- Vectors are only assigned to after they have been moved from (or to themselves). -/
inductive BitsCareful : Pool → List BitsOp → Prop
  | done (s : Pool) : BitsCareful s []
  | step {s s1 : Pool} {op : BitsOp} {r : Option Bool} {ops : List BitsOp} (h : op.run s = some (s1, r)) (hc : ∀ x y v, op = .moveAssign x y → s x = some v → x = y ∨ v.moved) (hr : BitsCareful s1 ops) : BitsCareful s (op :: ops)

/-- No vectors. -/
def Pool.none : Pool := fun _ => Option.none

end NW.Spec
