import Verif.Base

/-!
# Specification: what the operations of a container do to the sequence of its elements
-/

namespace NW.Spec

/-- The operations. -/
inductive RowOp (T : Type)
  | push (x : T)
  | put (i : Nat) (x : T)
  | clear
  | resize (n : Nat)
  | reserve (n : Nat)
  | replace (xs : List T)

/-- What a `std::vector` of the elements does; `none` if an element outside is assigned.  New elements are `dflt`. -/
def RowOp.run {T : Type} (dflt : T) (l : List T) : RowOp T → Option (List T)
  | .push x => some (l ++ [x])
  | .put i x => if i < l.length then some (l.set i x) else none
  | .clear => some []
  | .resize n => some (l.take n ++ List.replicate (n - l.length) dflt)
  | .reserve _ => some l
  | .replace xs => some xs

end NW.Spec
