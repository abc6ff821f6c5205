import Verif.Base

/-!
# Model of `dag_range`: adaptors/dag_range.hpp

The graph argument is only asked for its size; the range works on the two vectors of lists.  Simplification: the 64-bit counters are natural numbers.
-/

namespace NW.DagRange

/-- The range (its queue, counters and flag) and its iterator (`v_` and the position `j` of `successor_iterator` in the list of `v_`): dag_range.hpp:53-55, 112-118. -/
structure St where
  q : List Nat
  counter : List Nat
  ready : Bool
  v : Nat
  j : Nat
  deriving DecidableEq

/-- The loop that finds the next vertex with successors; `v_` is assigned even when the vertex is dropped: dag_range.hpp:68-81. -/
def nextVertex (succ : List (List Nat)) : List Nat → Nat → Nat → Res (List Nat × Nat × Nat)
  | [], v, j => return ([], v, j)
  | x :: q, _, j => do
    let sx ← vget succ x
    if sx.length = 0 then nextVertex succ q x j else return (x :: q, x, 0)

/-- If all successors of `v_` are processed, drop it and find the next vertex: dag_range.hpp:66-82. -/
def leave (succ : List (List Nat)) (st : St) : Res St := do
  let sv ← vget succ st.v
  if st.j = sv.length then
    match st.q with
    | [] => .error .emptyContainer
    | _ :: q =>
      let r ← nextVertex succ q st.v st.j
      return { st with q := r.1, v := r.2.1, j := r.2.2 }
  else return st

/-- Count the edge under the iterator: dag_range.hpp:83-90. -/
def countEdge (pred succ : List (List Nat)) (st : St) : Res St := do
  let sv ← vget succ st.v
  if sv.length > 0 then
    let w ← vget sv st.j
    let c ← vget st.counter w
    let counter ← vset st.counter w (c + 1)
    let pw ← vget pred w
    if c + 1 = pw.length then return { st with counter := counter, ready := true, q := st.q ++ [w] }
    else return { st with counter := counter, ready := false }
  else return st

/-- `advance_next`: dag_range.hpp:63-91. -/
def advance (pred succ : List (List Nat)) (st : St) : Res St := do
  let st ← leave succ st
  countEdge pred succ st

/-- The roots: dag_range.hpp:40-44. -/
def roots (pred : List (List Nat)) (n : Nat) : Res (List Nat) :=
  (List.range n).foldlM (fun q i => do
    let p ← vget pred i
    return if p.length = 0 then q ++ [i] else q) []

/-- The constructor and `begin()`: dag_range.hpp:35-45, 58-61, 109.  `ready0` is the flag before it is first assigned. -/
def start (pred succ : List (List Nat)) (n : Nat) (ready0 : Bool) : Res St := do
  let q ← roots pred n
  match q with
  | [] => .error .emptyContainer
  | v :: _ =>
    let _ ← vget succ v
    advance pred succ { q := q, counter := List.replicate n 0, ready := ready0, v := v, j := 0 }

/-- One round of a loop over the range: `it != end()` (dag_range.hpp:107, 49), `*it` (99-101), `++it` (93-97).  The second component collects what is delivered. -/
def round (pred succ : List (List Nat)) (s : St × List (Nat × Nat × Bool)) : Res ((St × List (Nat × Nat × Bool)) ⊕ List (Nat × Nat × Bool)) :=
  if s.1.q.isEmpty then return .inr s.2
  else do
    let sv ← vget succ s.1.v
    let w ← vget sv s.1.j
    let st ← advance pred succ { s.1 with j := s.1.j + 1 }
    return .inl (st, s.2 ++ [(s.1.v, w, s.1.ready)])

end NW.DagRange
