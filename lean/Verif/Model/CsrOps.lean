import Verif.Model.Csr

/-! # Operations that change a compressed structure (containers/compressed.hpp) -/

namespace NW.Csr
variable {α : Type}

/-! ## triangularize -/

/-- One iteration of the outer loop of `triangularize_`: compressed.hpp:348-360.  The inner loop runs `j` from `begin` until it
equals `end`; if the offsets decrease it never meets `end` inside the columns and reads out of bounds. -/
def triRow (comp : Nat → Nat → Bool) (g : Csr α) (st : List Nat × List (Nat × α)) (i : Nat) :
    Res (List Nat × List (Nat × α)) := do
  let b ← vget g.indices i
  let e ← vget g.indices (i + 1)
  if e < b then .error .outOfBounds
  else
    let es ← (List.range' b (e - b)).mapM g.edgeAt
    let keep := es.filter fun x => comp x.1 i
    let p ← vget st.1 i
    let ni ← vset st.1 (i + 1) (p + keep.length)
    return (ni, st.2 ++ keep)

/-- `triangularize_(comp)`: compressed.hpp:341-363. -/
def triangularizeBy (comp : Nat → Nat → Bool) (g : Csr α) : Res (Csr α) := do
  let ni ← vset (List.replicate g.indices.length 0) 0 0
  let st ← (List.range g.N).foldlM (triRow comp g) (ni, [])
  return { g with indices := st.1, tgt := st.2.map (·.1), attrs := st.2.map (·.2) }

/-- The enumeration `succession`: graph_base.hpp:25. -/
inductive Succession where
  | successor
  | predecessor
  deriving DecidableEq, Repr

/-- `triangularize<cessor>()`: compressed.hpp:365-376. -/
def triangularize (c : Succession) (g : Csr α) : Res (Csr α) :=
  match c with
  | .predecessor => triangularizeBy (fun v u => decide (v < u)) g
  | .successor => triangularizeBy (fun v u => decide (v > u)) g

/-! ## sort_by_degree -/

/-- The argument `direction`. -/
inductive Direction where
  | ascending
  | descending
  | other
  deriving DecidableEq, Repr

/-- `struct_of_arrays::permute` for one column: soa.hpp:316-325. -/
def permuteCol {β : Type} [Inhabited β] (indices newIndices perm : List Nat) (vs : List β) : Res (List β) := do
  let ws ← (List.range (indices.length - 1)).foldlM (fun ws i => do
    let j ← vget perm i
    let b ← vget indices j
    let e ← vget indices (j + 1)
    let k ← vget newIndices i
    if b ≤ e ∧ e ≤ vs.length then vcopy ws k ((vs.drop b).take (e - b)) else .error .outOfBounds)
    (List.replicate vs.length default)
  return ws

/-- The writes `new_tmp[old_id] = degs[perm[old_id]]`, `new_id_perm[perm[old_id]] = old_id`: compressed.hpp:482-488.
The iterations write distinct positions when `perm` is a permutation, so their order does not matter. -/
def invertPerm (perm : List Nat) : Res (List Nat) :=
  (List.range perm.length).foldlM (fun v i => do
    let p ← vget perm i
    vset v p i) (List.replicate perm.length 0)

/-- The comparators of the vertex sort: compressed.hpp:468-471. -/
def degLt (d : Direction) (key : Nat → Nat) (a b : Nat) : Bool :=
  match d with
  | .descending => decide (key a > key b)
  | _ => decide (key a < key b)

/-- `permute_by_degree(direction)`: compressed.hpp:449-509.  `srt lt` is the `std::sort` used with comparator `lt`.
Returns the new structure and `new_id_perm`. -/
def permuteByDegree [Inhabited α] (srt : (Nat → Nat → Bool) → List Nat → List Nat) (d : Direction) (g : Csr α) :
    Res (Csr α × List Nat) := do
  let n := g.indices.length - 1
  let degs ← g.degreesPar
  let key := fun a => (degs[a]?).getD 0
  if d = .other then return (g, [])
  else
    let perm := srt (degLt d key) (List.range n)
    let newTmp ← perm.mapM fun p => vget degs p
    let newIdPerm ← invertPerm perm
    let ind0 ← vget g.indices 0
    let newIndices := inclusiveScan 0 (ind0 :: newTmp)
    let tgt ← permuteCol g.indices newIndices newIdPerm g.tgt
    let att ← permuteCol g.indices newIndices newIdPerm g.attrs
    return ({ g with indices := newIndices, tgt := tgt, attrs := att }, newIdPerm)

/-- `relabel_to_be_indexed(new_id_perm)`: compressed.hpp:434-443. -/
def relabelToBeIndexed (srtIds : List Nat → List Nat) (newId : List Nat) (g : Csr α) : Res (Csr α) := do
  let tgt ← g.tgt.mapM fun v => vget newId v
  sortToBeIndexed srtIds { g with tgt := tgt }

/-- `sort_by_degree(direction)`: compressed.hpp:520-524. -/
def sortByDegree [Inhabited α] (srt : (Nat → Nat → Bool) → List Nat → List Nat) (srtIds : List Nat → List Nat)
    (d : Direction) (g : Csr α) : Res (Csr α) := do
  let (g', perm) ← permuteByDegree srt d g
  relabelToBeIndexed srtIds perm g'

/-! ## streaming construction -/

/-- `open_for_push_back()`: compressed.hpp:233-241. -/
def openForPushBack (g : Csr α) : Res (Csr α) := do
  check (g.tgt.length = 0)
  return { g with isOpen := true }

/-- `push_back(i, attrs...)`: compressed.hpp:275-284; `v` is the first attribute (the target id). -/
def pushBack (g : Csr α) (i v : Nat) (a : α) : Res (Csr α) := do
  let grow := i + 1 - g.indices.length
  let ind ← vincr (g.indices ++ List.replicate grow 0) i
  return { g with N := g.N + grow, indices := ind, tgt := g.tgt ++ [v], attrs := g.attrs ++ [a] }

/-- `close_for_push_back()`: compressed.hpp:243-250. -/
def closeForPushBack (g : Csr α) : Res (Csr α) :=
  if g.tgt.length = 0 then .ok g
  else do
    let ind := exclusiveScan 0 (vresize g.indices (g.N + 1) 0)
    check (ind.getLast? = some g.tgt.length)
    return { g with indices := ind, isOpen := false }

/-- `push_back_fill(el, cs)`: build.hpp:89-96; opens, pushes every edge, closes. -/
def pushBackFill (g : Csr α) (es : List (Nat × Nat × α)) : Res (Csr α) := do
  let g ← g.openForPushBack
  let g ← es.foldlM (fun g x => g.pushBack x.1 x.2.1 x.2.2) g
  g.closeForPushBack

/-- `push_at(i, attrs...)`: compressed.hpp:286-289. -/
def pushAt (g : Csr α) (i v : Nat) (a : α) : Res (Csr α) := do
  let j ← vget g.indices i
  let ind ← vset g.indices i (j + 1)
  let tgt ← vset g.tgt j v
  let att ← vset g.attrs j a
  return { g with indices := ind, tgt := tgt, attrs := att }

/-- `move(indices, columns)`: compressed.hpp:252-257, soa.hpp:227-229.  `N_` is not changed. -/
def moveIn (g : Csr α) (indices tgt : List Nat) (attrs : List α) : Res (Csr α) := do
  check (indices.getLast? = some tgt.length)
  return { g with indices := indices, tgt := tgt, attrs := attrs }

/-- `copy(indices, columns)`: compressed.hpp:264-268, soa.hpp:235-237.  Copies over the existing vectors without
resizing them. -/
def copyIn (g : Csr α) (indices tgt : List Nat) (attrs : List α) : Res (Csr α) := do
  let ind ← vcopy g.indices 0 indices
  let t ← vcopy g.tgt 0 tgt
  let a ← vcopy g.attrs 0 attrs
  check (ind.getLast? = some t.length)
  return { g with indices := ind, tgt := t, attrs := a }

end NW.Csr
