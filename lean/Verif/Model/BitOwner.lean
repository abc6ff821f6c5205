import Verif.Model.BitVector
import Verif.Spec.BitVectors

/-!
# Model of the objects of class `AtomicBitVector` and the memory that they own: util/AtomicBitVector.hpp

An object is its two members.  Memory is a map from addresses to arrays; `new` never returns an address again, so that using an array after `delete[]` is seen.
The copy operations do not exist, because the class declares its move operations.
-/

namespace NW.BitOwner
open Spec

/-- An array of words: fresh from `new Word[n]`, or with values. -/
inductive Block
  | raw (n : Nat)
  | words (v : List Nat)

/-- `bits_` and `data_` (`none` is `nullptr`): AtomicBitVector.hpp:48-49. -/
structure Obj where
  bits : Nat
  data : Option Nat

/-- The objects and the memory. -/
structure World where
  obj : Nat → Option Obj
  heap : Nat → Option Block
  next : Nat

/-- Before the program starts. -/
def World.start : World := ⟨fun _ => none, fun _ => none, 0⟩

def putObj (f : Nat → Option Obj) (x : Nat) (o : Option Obj) : Nat → Option Obj := fun y => if y = x then o else f y

def putBlock (f : Nat → Option Block) (p : Nat) (b : Option Block) : Nat → Option Block := fun q => if q = p then b else f q

def blockLength : Block → Nat
  | .raw n => n
  | .words v => v.length

/-- The object, which must exist. -/
def theObj (σ : World) (x : Nat) : Res Obj := match σ.obj x with
  | some o => .ok o
  | none => .error .memoryClobbered

/-- The array at an address: an error if it has been deleted. -/
def theBlock (σ : World) (p : Nat) : Res Block := match σ.heap p with
  | some b => .ok b
  | none => .error .memoryClobbered

/-- `std::fill(data_, data_ + words(bits_), Word(0))`: AtomicBitVector.hpp:78. -/
def clear (B : Nat) (σ : World) (x : Nat) : Res World := do
  let o ← theObj σ x
  match o.data with
  | none => if BitVec'.words B o.bits = 0 then return σ else .error .outOfBounds
  | some p =>
    let b ← theBlock σ p
    if BitVec'.words B o.bits = blockLength b then return { σ with heap := putBlock σ.heap p (some (.words (BitVec'.new B o.bits))) }
    else .error .outOfBounds

/-- `AtomicBitVector(bits, init)`: AtomicBitVector.hpp:60-62. -/
def construct (B : Nat) (σ : World) (x n : Nat) (init : Bool) : Res World :=
  let σ' : World := ⟨putObj σ.obj x (some ⟨n, some σ.next⟩), putBlock σ.heap σ.next (some (.raw (BitVec'.words B n))), σ.next + 1⟩
  if init then clear B σ' x else .ok σ'

/-- `~AtomicBitVector()`: AtomicBitVector.hpp:65; deleting `nullptr` does nothing, deleting an array twice is an error. -/
def destroy (σ : World) (x : Nat) : Res World := do
  let o ← theObj σ x
  match o.data with
  | none => return { σ with obj := putObj σ.obj x none }
  | some p =>
    let _ ← theBlock σ p
    return { σ with obj := putObj σ.obj x none, heap := putBlock σ.heap p none }

/-- The move constructor: AtomicBitVector.hpp:68. -/
def moveConstruct (σ : World) (x y : Nat) : Res World := do
  let rhs ← theObj σ y
  let bits := rhs.bits
  let obj := putObj σ.obj y (some ⟨0, rhs.data⟩)
  let data := rhs.data
  let obj := putObj obj y (some ⟨0, none⟩)
  return { σ with obj := putObj obj x (some ⟨bits, data⟩) }

/-- The move assignment, statement by statement; `x` and `y` may be the same object: AtomicBitVector.hpp:71-75. -/
def moveAssign (σ : World) (x y : Nat) : Res World := do
  let rhs ← theObj σ y
  let bits := rhs.bits
  let obj := putObj σ.obj y (some ⟨0, rhs.data⟩)
  let lhs ← theObj { σ with obj := obj } x
  let obj := putObj obj x (some ⟨bits, lhs.data⟩)
  let rhs ← theObj { σ with obj := obj } y
  let data := rhs.data
  let obj := putObj obj y (some ⟨rhs.bits, none⟩)
  let lhs ← theObj { σ with obj := obj } x
  let obj := putObj obj x (some ⟨lhs.bits, data⟩)
  return { σ with obj := obj }

/-- The words of an object: an error if there are none or they have no values. -/
def theWords (σ : World) (x : Nat) : Res (Nat × List Nat) := do
  let o ← theObj σ x
  match o.data with
  | none => .error .outOfBounds
  | some p =>
    match ← theBlock σ p with
    | .raw _ => .error .uninitialised
    | .words v => return (p, v)

/-- `get(i)`: AtomicBitVector.hpp:97-101. -/
def get (B : Nat) (σ : World) (x i : Nat) : Res Nat := do
  let (_, v) ← theWords σ x
  BitVec'.get B v i

/-- `set(i)`: AtomicBitVector.hpp:121-125. -/
def set (B : Nat) (σ : World) (x i : Nat) : Res (Nat × World) := do
  let (p, v) ← theWords σ x
  let (r, v') ← BitVec'.set B v i
  return (r, { σ with heap := putBlock σ.heap p (some (.words v')) })

/-- One operation of the program; what it returns is used as a truth value. -/
def step (B : Nat) (σ : World) : BitsOp → Res (World × Option Bool)
  | .construct x n init => do return (← construct B σ x n init, none)
  | .moveConstruct x y => do return (← moveConstruct σ x y, none)
  | .moveAssign x y => do return (← moveAssign σ x y, none)
  | .clear x => do return (← clear B σ x, none)
  | .get x i => do return (σ, some (decide ((← get B σ x i) ≠ 0)))
  | .set x i => do
    let (r, σ') ← set B σ x i
    return (σ', some (decide (r ≠ 0)))
  | .destroy x => do return (← destroy σ x, none)

/-- The operations one after the other. -/
def run (B : Nat) (σ : World) : List BitsOp → Res (World × List (Option Bool))
  | [] => .ok (σ, [])
  | op :: ops => do
    let (σ1, r) ← step B σ op
    let (σ2, rs) ← run B σ1 ops
    return (σ2, r :: rs)

end NW.BitOwner
