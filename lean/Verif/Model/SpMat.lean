import Verif.Base
import Verif.Spec.Walk

/-!
# Model of algorithms/spMatspMat.hpp

A matrix is given by its rows, each a list of stored entries (column, value).  Scalars are elements of any type with the given map and reduce
operations.  The edge list that is returned is the list of the tuples pushed to it.
-/

namespace NW.SpMat
open Spec

variable {α β γ : Type}

/-- `std::map::find`; the map is the list of its entries in key order. -/
def mapFind (m : List (Nat × γ)) (j : Nat) : Option γ :=
  match m with
  | [] => none
  | (k, x) :: m' => if k = j then some x else mapFind m' j

/-- `m[j] = x` on a `std::map`. -/
def mapSet (m : List (Nat × γ)) (j : Nat) (x : γ) : List (Nat × γ) :=
  match m with
  | [] => [(j, x)]
  | (k, y) :: m' => if j < k then (j, x) :: (k, y) :: m' else if k = j then (j, x) :: m' else (k, y) :: mapSet m' j x

/-- The body of the innermost loop: spMatspMat.hpp:69-75. -/
def accumulate1 (mul : α → β → γ) (add : γ → γ → γ) (a : α) (m : List (Nat × γ)) (e : Nat × β) : List (Nat × γ) :=
  let tmp := mul a e.2
  match mapFind m e.1 with
  | some x => mapSet m e.1 (add x tmp)
  | none => mapSet m e.1 tmp

/-- The temporary row for row `Ai`: spMatspMat.hpp:62-77. -/
def rowMap (mul : α → β → γ) (add : γ → γ → γ) (B : Rows β) (Ai : List (Nat × α)) : Res (List (Nat × γ)) :=
  Ai.foldlM (init := []) fun m ka => do
    let Bk ← vget B ka.1
    return Bk.foldl (accumulate1 mul add ka.2) m

/-- `spMatspMat(A, B)`: spMatspMat.hpp:54-87. -/
def spMatspMat (mul : α → β → γ) (add : γ → γ → γ) (A : Rows α) (B : Rows β) : Res (List (Nat × Nat × γ)) :=
  (List.range A.length).foldlM (init := []) fun edges i => do
    let Ai ← vget A i
    let m ← rowMap mul add B Ai
    return m.foldl (fun edges elt => edges ++ [(i, elt.1, elt.2)]) edges

/-- `set_ewise_intersection` with the comparison and map of `spMatspMatT`: spMatspMat.hpp:107-118. -/
def ewise (mul : α → β → γ) (xs : List (Nat × α)) (ys : List (Nat × β)) (i j : Nat) (out : List γ) : Res (List γ) :=
  if _h : i < xs.length ∧ j < ys.length then do
    let x ← vget xs i
    let y ← vget ys j
    if x.1 < y.1 then ewise mul xs ys (i + 1) j out
    else if ¬ y.1 < x.1 then ewise mul xs ys (i + 1) (j + 1) (out ++ [mul x.2 y.2])
    else ewise mul xs ys i (j + 1) out
  else return out
termination_by (xs.length - i) + (ys.length - j)
decreasing_by all_goals omega

/-- The body for row `Ai` and column `Bj`: spMatspMat.hpp:151-163. -/
def dotStep (mul : α → β → γ) (add : γ → γ → γ) (zero : γ) (i : Nat) (Ai : List (Nat × α)) (edges : List (Nat × Nat × γ)) (jb : Nat × List (Nat × β)) :
    Res (List (Nat × Nat × γ)) := do
  let products ← ewise mul Ai jb.2 0 0 []
  if products.isEmpty then return edges
  else return edges ++ [(i, jb.1, products.foldl add zero)]

/-- `spMatspMatT(A, BT)`: spMatspMat.hpp:137-169.  The running index beside each iterator is the position in the list. -/
def spMatspMatT (mul : α → β → γ) (add : γ → γ → γ) (zero : γ) (A : Rows α) (BT : Rows β) : Res (List (Nat × Nat × γ)) :=
  (A.zipIdx.map fun x => (x.2, x.1)).foldlM (init := []) fun edges ia =>
    (BT.zipIdx.map fun x => (x.2, x.1)).foldlM (init := edges) (dotStep mul add zero ia.1 ia.2)

end NW.SpMat
