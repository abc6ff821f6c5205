import Verif.Model.DisjointSet

/-!
# Model of the rest of the class `disjoint_set` of util/disjoint_set.hpp: reading the sets, moving elements

The conventions are those of `Model/DisjointSet`; the line numbers are those of util/disjoint_set.hpp.  A `std::set<T>` is the ascending list of its elements.
The copy constructor (128-136) deletes a pointer that was never set, and `allToSingletons(policy)` (160-167) does not compile; neither is modelled.
-/

namespace NW.DsetOut
open DisjointSet

/-- `reset()`: 144.  The number of sets is left as it is. -/
def reset (d : DSet) : DSet := { d with sets := List.replicate d.sets.length (-1) }

/-- `reset(index)`: 149-155.  `none`: an exception was thrown. -/
def resetAt (d : DSet) (index : Int) : Res (Option DSet) :=
  if badIndex d index then return none
  else do
    let s ← vset d.sets index.toNat index
    return some { d with sets := s }

/-- `allToSingletons(arr, size)`: 168-177. -/
def allToSingletons (arr : List Int) (size : Nat) : Res (List Int) := (List.range size).foldlM (fun (s : List Int) i => vset s i (i : Int)) arr

/-- `directFind(index)`: 246-254. -/
def directFind (d : DSet) (index : Int) : Res (Option Int) :=
  if badIndex d index then return none
  else do
    let x ← vget d.sets index.toNat
    return some x

/-- The part of `join` for different roots: 266-292.  The result is the new state. -/
def moveTo (d : DSet) (v rootu rootv : Nat) : Res DSet := do
  let b ← vget d.sets rootv
  if -1 > b then
    if v ≠ rootv then
      let s ← vset d.sets rootv (b + 1)
      let a ← vget s rootu
      let s ← vset s rootu (a - 1)
      let s ← vset s v (rootu : Int)
      return { d with sets := s }
    else
      let a ← vget d.sets rootu
      let s ← vset d.sets rootu (a + b)
      let s ← vset s v (rootu : Int)
      return { d with sets := s }
  else
    let s ← vset d.sets v (rootu : Int)
    let a ← vget s rootu
    let s ← vset s rootu (a - 1)
    return ⟨s, d.nsets - 1⟩

/-- `join(u, v)`: 261-297.  It returns true unless it throws. -/
def join (d : DSet) (u v : Int) : Run (Option DSet) := do
  if u = v then return some d
  else
    match ← find d u with
    | none => return none
    | some ru =>
      match ← find d v with
      | none => return none
      | some rv =>
        if ru ≠ rv then
          let d ← Run.lift (moveTo d v.toNat ru rv)
          return some d
        else return some d

/-- `directJoin(u, v)`: 303-310. -/
def directJoin (d : DSet) (u v : Int) : Res (Option DSet) :=
  if badIndex d v then return none
  else do
    let s ← vset d.sets v.toNat u
    return some { d with sets := s }

/-- `unionBySizeAtomic(u, v)`, called by one thread: 372-410.  `writeAdd` (586-592) then adds.  The output is left out; the assertions compare with the largest integer and hold. -/
def unionBySizeAtomic (d : DSet) (u v : Nat) : Run (Option DSet) := do
  match ← findCompress d v with
  | (_, none) => return none
  | (d, some rootv) =>
    if u = rootv then return some d
    else
      let a ← Run.lift (vget d.sets u)
      let b ← Run.lift (vget d.sets rootv)
      let s ← Run.lift (if a > b then vset d.sets rootv (b + a) else vset d.sets u (a + b))
      let s ← Run.lift (if u < v then vset s u (rootv : Int) else vset s rootv (u : Int))
      return some { d with sets := s }

/-- `getRawSubsets()`: 457-464; `forEach` calls its argument on the same values: 596-599. -/
def rawSubsets (d : DSet) : Res (List Int) := (List.range d.sets.length).mapM fun i => vget d.sets i

/-- `getSubsets()`: 469-482.  The elements come in ascending order, so the new one is the last of its set. -/
def getSubsets (d : DSet) : Run (Option (List (List Nat))) := do
  let sets ← (List.range d.sets.length).foldlM (fun (acc : Option (List (List Nat))) (i : Nat) =>
    match acc with
    | none => (return none : Run (Option (List (List Nat))))
    | some sets => do
      match ← find d (i : Int) with
      | none => return none
      | some r =>
        let x ← Run.lift (vget sets r)
        let sets ← Run.lift (vset sets r (x ++ [i]))
        return some sets) (some (List.replicate (d.sets.length + 1) []))
  return sets.map fun sets => sets.filter fun s => decide (0 < s.length)

/-- The labels of the roots: 490-498.  The number is the last label. -/
def rootLabels (d : DSet) : Res (List Int × Nat) :=
  (List.range d.sets.length).foldlM (fun (p : List Int × Nat) i => do
    let x ← vget d.sets i
    if 0 > x then
      let c ← vset p.1 i ((p.2 + 1 : Nat) : Int)
      return (c, p.2 + 1)
    else return p) (List.replicate d.sets.length (-1), 0)

/-- `getCompactDisjSets(nsets)`: 488-506.  The result is the labels and `nsets`. -/
def compactSets (d : DSet) : Run (Option (List Int × Nat)) := do
  let p ← Run.lift (rootLabels d)
  let c ← (List.range d.sets.length).foldlM (fun (acc : Option (List Int)) (i : Nat) =>
    match acc with
    | none => (return none : Run (Option (List Int)))
    | some c => do
      let x ← Run.lift (vget d.sets i)
      if 0 ≤ x then do
        match ← find d (i : Int) with
        | none => return none
        | some r =>
          let y ← Run.lift (vget c r)
          let c ← Run.lift (vset c i y)
          return some c
      else return some c) (some p.1)
  return c.map fun c => (c, p.2)

/-- `compactmap.insert(make_pair(x, j))` with `++j` if it was inserted: 512-514.  The map is a list of pairs. -/
def insertLabel (m : List (Int × Nat) × Nat) (x : Int) : List (Int × Nat) × Nat :=
  if m.1.any (fun e => decide (e.1 = x)) then m else (m.1 ++ [(x, m.2)], m.2 + 1)

/-- `compactmap[x]`: 519.  A key that is not there would be given the label 0. -/
def labelOf (m : List (Int × Nat)) (x : Int) : Nat := ((m.find? fun e => decide (e.1 = x)).map Prod.snd).getD 0

/-- `getCompactDisjSets()`: 508-523. -/
def compactValues (d : DSet) : Res (List Nat) := do
  let m ← (List.range d.sets.length).foldlM (fun (m : List (Int × Nat) × Nat) i => do
    let x ← vget d.sets i
    return insertLabel m x) ([], 1)
  (List.range d.sets.length).mapM fun i => do
    let x ← vget d.sets i
    return labelOf m.1 x

/-- The arguments of the calls that `forEachRootIndex` makes: 612-617; `forEachRoot` (606-610) is called with the entries of these. -/
def rootIndices (d : DSet) : Res (List Nat) :=
  (List.range d.sets.length).filterM fun i => do
    let x ← vget d.sets i
    return decide (0 > x) || decide ((i : Int) = x)

/-- The arguments of the calls that `forEachRoot` makes: 606-610. -/
def rootEntries (d : DSet) : Res (List Int) := do
  let l ← rootIndices d
  l.mapM fun i => vget d.sets i

/-- `getSetNumber()`: 528. -/
def getSetNumber (d : DSet) : Nat := d.nsets

end NW.DsetOut
