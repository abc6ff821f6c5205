import Verif.Concur
import Verif.Spec.Weighted

/-!
# Model of the shortest path algorithms: algorithms/dijkstra.hpp, algorithms/delta_stepping.hpp (sequential)

The graph is given by its rows and `weight` by a function `wt` of the stored entry; weights are natural numbers, distances are unsigned integers up to
`dmax`, with wrap-around addition.  Floating point weights are not modelled.
-/

namespace NW.Sssp
open Spec

variable {α τ : Type}

/-- The body of the innermost loops: if going through `u` is shorter, record the new distance and push the vertex:
dijkstra.hpp:105-112, delta_stepping.hpp:120-130 (the sequential `relax`), 68-74 (`delta_stepping_m1`).  They differ in `push`. -/
def relax (wt : Nat × α → Nat) (dmax : Nat) (push : Nat → Nat → τ → Res τ) (u : Nat) (st : List Nat × τ) (e : Nat × α) : Res (List Nat × τ) := do
  let du ← vget st.1 u
  let dv ← vget st.1 e.1
  let nd := (du + wt e) % (dmax + 1)
  if nd < dv then
    let dist ← vset st.1 e.1 nd
    let q ← push e.1 nd st.2
    return (dist, q)
  else return st

/-! ## dijkstra -/

/-- `Q.push({v, distance[v]})`: dijkstra.hpp:110.  The queue is the collection of its entries. -/
def pushQ (v d : Nat) (q : List (Nat × Nat)) : Res (List (Nat × Nat)) := return q ++ [(v, d)]

/-- The loop: dijkstra.hpp:100-114.  `std::greater<tuple<vertex, distance>>` makes `top()` the entry with the least vertex id; the model lets `top()` be any
entry, which includes this and every other order. -/
inductive DStep (g : Rows α) (wt : Nat × α → Nat) (dmax : Nat) : List Nat × List (Nat × Nat) → Res ((List Nat × List (Nat × Nat)) ⊕ List Nat) → Prop
  | done {dist : List Nat} : DStep g wt dmax (dist, []) (.ok (.inr dist))
  | pop {dist : List Nat} {q q' : List (Nat × Nat)} {u d : Nat} (h : q.Perm ((u, d) :: q')) :
      DStep g wt dmax (dist, q) (do
        let r ← vget g u
        let st ← r.foldlM (relax wt dmax pushQ u) (dist, q')
        return .inl st)

/-- The start: dijkstra.hpp:86-98; `inf` is the maximum of the *vertex* type. -/
def dInit (g : Rows α) (inf source : Nat) : Res (List Nat × List (Nat × Nat)) := do
  check (source < g.length)
  let dist ← vset (List.replicate g.length inf) source 0
  return (dist, [(source, 0)])

/-! ## delta_stepping, sequential -/

/-- Into the bin of the new distance, growing the bins: delta_stepping.hpp:124-128. -/
def pushBin (delta : Nat) (j nd : Nat) (bins : List (List Nat)) : Res (List (List Nat)) :=
  if delta = 0 then .error .divByZero
  else do
    let bins' := if nd / delta ≥ bins.length then bins ++ List.replicate (nd / delta + 1 - bins.length) [] else bins
    let b ← vget bins' (nd / delta)
    vset bins' (nd / delta) (b ++ [j])

/-- The body for one frontier vertex: delta_stepping.hpp:139-148. -/
def sVertex (g : Rows α) (wt : Nat × α → Nat) (dmax delta top : Nat) (st : List Nat × List (List Nat)) (i : Nat) :
    Res (List Nat × List (List Nat)) := do
  let di ← vget st.1 i
  if di ≥ delta * top then
    let r ← vget g i
    r.foldlM (relax wt dmax (pushBin delta) i) st
  else return st

/-- `while (top_bin < bins.size() && bins[top_bin].size() == 0) ++top_bin`: delta_stepping.hpp:150-152. -/
def skipEmpty (bins : List (List Nat)) (top : Nat) : Nat :=
  if h : top < bins.length then
    if bins[top] = [] then skipEmpty bins (top + 1) else top
  else top
termination_by bins.length - top

/-- One round: delta_stepping.hpp:134-153. -/
def sBody (g : Rows α) (wt : Nat × α → Nat) (dmax delta : Nat) (s : List Nat × List (List Nat) × Nat) :
    Res ((List Nat × List (List Nat) × Nat) ⊕ List Nat) :=
  match s with
  | (dist, bins, top) =>
    if top < bins.length then do
      let frontier ← vget bins top
      let bins' ← vset bins top []
      let st ← frontier.foldlM (sVertex g wt dmax delta top) (dist, bins')
      return .inl (st.1, st.2, skipEmpty st.2 top)
    else return .inr dist

/-- `delta_stepping(graph, source, delta, weight)` ends with `o`: delta_stepping.hpp:109-156. -/
def Delta (g : Rows α) (wt : Nat × α → Nat) (dmax delta source : Nat) (o : Res (List Nat)) : Prop :=
  match vset (List.replicate g.length dmax) source 0 with
  | .error f => o = .error f
  | .ok dist => Loop (sBody g wt dmax delta) (dist, [[source]], 0) o

/-! ## delta_stepping_m1 -/

/-- The positions `[begin(), end())` of the frontier: `_priority_queue::begin` and `end` both return `c.begin()`: delta_stepping.hpp:49-52. -/
def pqRange (c : List Nat) : List Nat := (c.drop 0).take (0 - 0)

/-- `Q.push(j)`: delta_stepping.hpp:72. -/
def pushId (j _nd : Nat) (q : List Nat) : Res (List Nat) := return q ++ [j]

/-- One frontier vertex: delta_stepping.hpp:81-88. -/
def mVertex (g : Rows α) (wt : Nat × α → Nat) (dmax : Nat) (st : List Nat × List Nat) (i : Nat) : Res (List Nat × List Nat) := do
  let r ← vget g i
  r.foldlM (relax wt dmax pushId i) st

/-- One round: delta_stepping.hpp:76-89. -/
def mBody (g : Rows α) (wt : Nat × α → Nat) (dmax : Nat) (s : List Nat × List Nat) : Res ((List Nat × List Nat) ⊕ List Nat) :=
  match s with
  | (dist, q) =>
    if q = [] then return .inr dist
    else do
      let st ← (pqRange q).foldlM (mVertex g wt dmax) (dist, [])
      return .inl st

/-- `delta_stepping_m1(graph, source, delta, weight)` ends with `o`: delta_stepping.hpp:55-92. -/
def M1 (g : Rows α) (wt : Nat × α → Nat) (dmax source : Nat) (o : Res (List Nat)) : Prop :=
  match vset (List.replicate g.length dmax) source 0 with
  | .error f => o = .error f
  | .ok dist => Loop (mBody g wt dmax) (dist, [source]) o

end NW.Sssp
