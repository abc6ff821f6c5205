import Verif.Run

/-!
# Model of the class `disjoint_set` of util/disjoint_set.hpp

An entry of `sets_` is the parent of an element if it is not negative, and minus the size (or height) of the set of a root otherwise.  Integers do not
overflow.  A thrown `std::range_error` is the value `none`.
-/

namespace NW.DisjointSet

/-- The members: `sets_` (whose length is `maxid_`) and `nsets_`. -/
structure DSet where
  sets : List Int
  nsets : Nat
  deriving DecidableEq, Repr

/-- `disjoint_set(max_element)`: disjoint_set.hpp:116-123; `memset` with -1 makes every entry -1. -/
def create (n : Nat) : DSet := ⟨List.replicate n (-1), n⟩

/-- The check of the argument: disjoint_set.hpp:184-186, 219-221. -/
def badIndex (d : DSet) (index : Int) : Bool := decide (index > (d.sets.length : Int)) || decide (index < 0)

/-- The loop of `find`: disjoint_set.hpp:228-231. -/
def findBody (s : List Int) (t : Nat) : Res (Nat ⊕ Nat) := do
  let x ← vget s t
  match x with
  | .ofNat p => return .inl p
  | .negSucc _ => return .inr t

/-- `find(index)`: disjoint_set.hpp:217-233.  The loop starts at 0, whatever the argument. -/
def find (d : DSet) (index : Int) : Run (Option Nat) :=
  if badIndex d index then return none
  else do
    let t ← Run.loop (findBody d.sets) 0
    return some t

/-- The loop collecting the path: disjoint_set.hpp:199-202.  The head of the list is the top of the stack. -/
def climbBody (s : List Int) (st : List Nat × Nat) : Res ((List Nat × Nat) ⊕ (List Nat × Nat)) := do
  let x ← vget s st.2
  match x with
  | .ofNat p => return .inl (st.2 :: st.1, p)
  | .negSucc _ => return .inr st

/-- `find_with_pathcompression(index)`: disjoint_set.hpp:182-210. -/
def findCompress (d : DSet) (index : Int) : Run (DSet × Option Nat) :=
  if badIndex d index then return (d, none)
  else do
    let x ← Run.lift (vget d.sets index.toNat)
    match x with
    | .negSucc _ => return (d, some index.toNat)
    | .ofNat _ =>
      let (stack, root) ← Run.loop (climbBody d.sets) ([], index.toNat)
      let s ← Run.lift (stack.foldlM (fun s x => vset s x (root : Int)) d.sets)
      return ({ d with sets := s }, some root)

/-- `combineBySize(u, v)`: disjoint_set.hpp:350-371; the diagnostic output is left out. -/
def combineBySize (d : DSet) (u v : Nat) : Res DSet := do
  let a ← vget d.sets u
  let b ← vget d.sets v
  check (decide (0 ≥ a))
  check (decide (0 ≥ b))
  if a > b then
    let s ← vset d.sets v (b + a)
    let s ← vset s u (v : Int)
    return { d with sets := s }
  else
    let s ← vset d.sets u (a + b)
    let s ← vset s v (u : Int)
    return { d with sets := s }

/-- The update of the height when both trees are equally high: disjoint_set.hpp:426. -/
def raiseHeight (s : List Int) (v : Nat) (a b : Int) : Res (List Int) := if a = b then vset s v (b - 1) else pure s

/-- `combineByHeight(v, u)`: disjoint_set.hpp:417-429. -/
def combineByHeight (d : DSet) (v u : Nat) : Res DSet := do
  let a ← vget d.sets u
  let b ← vget d.sets v
  check (decide (0 ≥ a))
  check (decide (0 ≥ b))
  if b > a then
    let s ← vset d.sets v (u : Int)
    return { d with sets := s }
  else
    let s ← raiseHeight d.sets v a b
    let s ← vset s u (v : Int)
    return { d with sets := s }

/-- `unionBySize(u, v)`, `unionByHeight(u, v)` with the given way to combine two roots: disjoint_set.hpp:323-341.  `none`: an exception was
thrown. -/
def union (combine : DSet → Nat → Nat → Res DSet) (d : DSet) (u v : Int) : Run (Option DSet) := do
  match ← find d u with
  | none => return none
  | some ru =>
    match ← find d v with
    | none => return none
    | some rv =>
      if ru ≠ rv then
        let d ← Run.lift (combine d ru rv)
        return some { d with nsets := d.nsets - 1 }
      else return some d

/-- `getSetSize(u)`: disjoint_set.hpp:534; the value before the conversion to `size_t`. -/
def getSetSize (d : DSet) (u : Int) : Run (Option Int) := do
  match ← find d u with
  | none => return none
  | some r => return some (-(r : Int))

end NW.DisjointSet
