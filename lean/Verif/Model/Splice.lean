import Verif.Model.DisjointSet

/-!
# Model of further members of the class `disjoint_set` of util/disjoint_set.hpp: `reset`, `UnionBySplicing`, `getCompactDisjSets`

Integers do not overflow.  A thrown `std::range_error` is the value `none`.
-/

namespace NW.Splice
open DisjointSet

/-- `sets_[i]`. -/
def ent (s : List Int) : Int → Res Int
  | .ofNat i => vget s i
  | .negSucc _ => .error .outOfBounds

/-- `sets_[i] = x`. -/
def put (s : List Int) (i x : Int) : Res (List Int) :=
  match i with
  | .ofNat i => vset s i x
  | .negSucc _ => .error .outOfBounds

/-- `reset(index)`: disjoint_set.hpp:149-155. -/
def resetAt (d : DSet) (index : Int) : Res (Option DSet) :=
  if badIndex d index then return none
  else do
    let s ← put d.sets index index
    return some { d with sets := s }

/-- One round of the loop of `UnionBySplicing`; the state is `sets_`, `v` and `u`: disjoint_set.hpp:432-454. -/
def spliceBody (st : List Int × Int × Int) : Res ((List Int × Int × Int) ⊕ List Int) := do
  let s := st.1
  let v := st.2.1
  let u := st.2.2
  let a ← ent s v
  let b ← ent s u
  if a = b then return .inr s
  else if a < b then
    if v = a then
      let s ← put s v b
      return .inr s
    else
      let z := v
      let s ← put s v b
      let v ← ent s z
      return .inl (s, v, u)
  else
    if u = b then
      let s ← put s u a
      return .inr s
    else
      let z := u
      let s ← put s u a
      let u ← ent s z
      return .inl (s, v, u)

/-- `UnionBySplicing(v, u)`: disjoint_set.hpp:430-455. -/
def unionBySplicing (d : DSet) (v u : Int) : Run DSet := do
  let s ← Run.loop spliceBody (d.sets, v, u)
  return { d with sets := s }

/-- A sequence of calls of `UnionBySplicing`. -/
def unions (d : DSet) (calls : List (Nat × Nat)) : Run DSet := calls.foldlM (fun d c => unionBySplicing d (c.1 : Int) (c.2 : Int)) d

/-- `compactmap.insert(std::make_pair(x, j))`; the map is the list of its keys with their values: disjoint_set.hpp:513-514. -/
def insertLabel (st : List (Int × Int) × Int) (x : Int) : List (Int × Int) × Int :=
  if st.1.any (fun e => decide (e.1 = x)) then st else (st.1 ++ [(x, st.2)], st.2 + 1)

/-- `compactmap[x]`; a key that is not there would get the value 0: disjoint_set.hpp:519. -/
def lookup (m : List (Int × Int)) (x : Int) : Int := ((m.find? fun e => decide (e.1 = x)).map (·.2)).getD 0

/-- `getCompactDisjSets()`: disjoint_set.hpp:508-523. -/
def compact (d : DSet) : List Int :=
  let st := d.sets.foldl insertLabel ([], 1)
  d.sets.map (lookup st.1)

end NW.Splice
