import Verif.Run
import Verif.Spec.Walk
import Mathlib.Data.Rat.Defs
import Mathlib.Algebra.Field.Rat
import Mathlib.Algebra.Order.Field.Rat

/-!
# Model of the sequential algorithms/betweenness_centrality.hpp

Path counts have an unsigned type with `M` values.  Scores are rational numbers: rounding is not modelled, nor is the rounding of the distances that
the code keeps in the score type.  Simplification: the stack and the queue, which are declared outside the loop over the sources and are empty after each
source, are local to a source.
-/

namespace NW.Brandes
open Spec

variable {α : Type}

/-- `Q`, `S` (top first), `path_counts`, `d`, `P`. -/
structure Fwd where
  Q : List Nat
  S : List Nat
  pc : List Nat
  d : List Int
  P : List (List Nat)

/-- Discovery of `w` from `v`: betweenness_centrality.hpp:169-172. -/
def discover (v w : Nat) (st : Fwd) : Res Fwd := do
  let dw ← vget st.d w
  if dw < 0 then
    let dv ← vget st.d v
    let d ← vset st.d w (dv + 1)
    return { st with Q := st.Q ++ [w], d := d }
  else return st

/-- Recording `v` as a predecessor of `w`: betweenness_centrality.hpp:173-176. -/
def record (M v w : Nat) (st : Fwd) : Res Fwd := do
  let dw ← vget st.d w
  let dv ← vget st.d v
  if dw = dv + 1 then
    let a ← vget st.pc w
    let b ← vget st.pc v
    let pc ← vset st.pc w ((a + b) % M)
    let l ← vget st.P w
    let P ← vset st.P w (l ++ [v])
    return { st with pc := pc, P := P }
  else return st

/-- The body of the loop over the neighbours: betweenness_centrality.hpp:166-177. -/
def fwdEdge (M v : Nat) (st : Fwd) (e : Nat × α) : Res Fwd := do
  let st ← discover v e.1 st
  record M v e.1 st

/-- One round of the search: betweenness_centrality.hpp:162-178. -/
def fwdBody (M : Nat) (g : Rows α) (st : Fwd) : Res (Fwd ⊕ Fwd) :=
  match st.Q with
  | [] => return .inr st
  | v :: q => do
    let row ← vget g v
    let st ← row.foldlM (fwdEdge M v) { st with Q := q, S := v :: st.S }
    return .inl st

/-- The initialisation for source `s`: betweenness_centrality.hpp:154-160. -/
def fwdInit (M n s : Nat) : Res Fwd := do
  let pc ← vset (List.replicate n 0) s (1 % M)
  let d ← vset (List.replicate n (-1)) s 0
  return { Q := [s], S := [], pc := pc, d := d, P := List.replicate n [] }

/-- The body of the loop over the predecessors of `w`: betweenness_centrality.hpp:184-186. -/
def backPred (pc : List Nat) (w : Nat) (delta : List ℚ) (v : Nat) : Res (List ℚ) := do
  let a ← vget pc v
  let b ← vget pc w
  let dw ← vget delta w
  let dv ← vget delta v
  vset delta v (dv + (a : ℚ) / (b : ℚ) * (1 + dw))

/-- One vertex popped from the stack: betweenness_centrality.hpp:181-190.  The state is `delta` and `centrality`. -/
def backStep (st : Fwd) (s : Nat) (x : List ℚ × List ℚ) (w : Nat) : Res (List ℚ × List ℚ) := do
  let ps ← vget st.P w
  let delta ← ps.foldlM (backPred st.pc w) x.1
  if w ≠ s then
    let dw ← vget delta w
    let c ← vget x.2 w
    let cent ← vset x.2 w (c + dw)
    return (delta, cent)
  else return (delta, x.2)

/-- The body of the loop over the sources: betweenness_centrality.hpp:153-191. -/
def source (M : Nat) (g : Rows α) (cent : List ℚ) (s : Nat) : Run (List ℚ) := do
  let st ← Run.lift (fwdInit M g.length s)
  let st ← Run.loop (fwdBody M g) st
  let x ← Run.lift (st.S.foldlM (backStep st s) (List.replicate g.length 0, cent))
  return x.2

/-- The scores before normalisation: betweenness_centrality.hpp:145-191. -/
def scores (M : Nat) (g : Rows α) : Run (List ℚ) := (List.range g.length).foldlM (source M g) (List.replicate g.length 0)

/-- The normalisation: betweenness_centrality.hpp:192-195.  `none` is the result "not a number" of `0 / 0`; all scores are non-negative, so there is
no other division by zero. -/
def normalise (c : List ℚ) : Res (List (Option ℚ)) :=
  match c with
  | [] => .error .emptyContainer
  | x :: xs =>
    let largest := xs.foldl max x
    return c.map fun y => if largest = 0 then none else some (y / largest)

/-- `brandes_bc(G, normalize)`: betweenness_centrality.hpp:141-197. -/
def brandesBc (M : Nat) (g : Rows α) (norm : Bool) : Run (List (Option ℚ)) := do
  let c ← scores M g
  if norm then Run.lift (normalise c) else return c.map some

end NW.Brandes
