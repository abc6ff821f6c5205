import Verif.Model.Triangle
import Verif.Model.Ranges
import Verif.Model.Csr
import Verif.Run

/-!
# Model of experimental/algorithms/triangle_count.hpp

Line numbers without a file name are of that file.  A graph is given by its rows, except where the code uses the compressed arrays themselves.  Counts
are natural numbers (no wrap-around); versions 12 and 13 add them up as `double`, which is the same below 2^53.
-/

namespace NW.Triangle
open Spec Util

variable {α : Type}

/-! ## The compressed arrays -/

/-- `lower_bound_set_intersection`, 37-54, with an output iterator that counts the assignments, util.hpp:35-57.  `std::lower_bound` on a sorted range
skips the elements below the value. -/
def gallop (xs ys : List Nat) : Nat :=
  match xs, ys with
  | [], _ => 0
  | _ :: _, [] => 0
  | x :: xs, y :: ys =>
    if x < y then gallop (xs.dropWhile fun z => decide (z < y)) (y :: ys)
    else if y < x then gallop (x :: xs) (ys.dropWhile fun z => decide (z < x))
    else gallop xs ys + 1
termination_by xs.length + ys.length
decreasing_by
  · have := (List.dropWhile_sublist (fun z => decide (z < y)) (l := xs)).length_le
    simp only [List.length_cons]; omega
  · have := (List.dropWhile_sublist (fun z => decide (z < x)) (l := ys)).length_le
    simp only [List.length_cons]; omega
  · simp only [List.length_cons]; omega

/-- The elements between `&idxs[b]` and `&idxs[e]`. -/
def pointers (idxs : List Nat) (b e : Nat) : Res (List Nat) :=
  if b ≤ e ∧ e ≤ idxs.length then .ok ((idxs.drop b).take (e - b)) else .error .outOfBounds

/-- The body of the inner loop: 67-73. -/
def vcEdge (c : Csr α) (i acc j : Nat) : Res Nat := do
  let k ← vget c.tgt j
  let k0 ← vget c.indices i
  let k1 ← vget c.indices (i + 1)
  let k2 ← vget c.indices k
  let k3 ← vget c.indices (k + 1)
  let a ← pointers c.tgt k2 k3
  let b ← pointers c.tgt k0 k1
  return acc + gallop a b

/-- The inner loop: 66-74. -/
def vcRow (c : Csr α) (acc i : Nat) : Res Nat := do
  let b ← vget c.indices i
  let e ← vget c.indices (i + 1)
  (List.range' b (e - b)).foldlM (vcEdge c i) acc

/-- `triangle_count_vc(A)`: 56-78.  There is at least one offset in every constructed graph. -/
def countVc (c : Csr α) : Res Nat := (List.range (c.indices.length - 1)).foldlM (vcRow c) 0

/-! ## Sequential versions -/

/-- `triangle_count_v1(A)`: 81-94.  `(*first).begin()` to `(*first).end()`, and the row from `elt` on. -/
def countV1 (g : Rows α) : Res Nat := g.foldlM (workerRow g) 0

/-- `triangle_count_v15(A)`: 96-107.  The rows come with their numbers, which are not used. -/
def countV15 (g : Rows α) : Run Nat := do
  let rows ← (show Run (List (Nat × List (Nat × α))) from fun o => (Ranges.neighborIter (vget g) g.length).Visits 0 o)
  Run.lift (rows.foldlM (fun acc r => countRow g acc r.2) 0)

/-- The inner loop of `triangle_count_v2`: 118-121. -/
def rowV2 (g : Rows α) (i acc : Nat) (row : List (Nat × α)) : Res Nat :=
  row.foldlM (init := acc) fun acc e => do
    let a ← vget g e.1
    let b ← vget g i
    let k ← intersectionSize (ids a) (ids b)
    return acc + k

/-- `triangle_count_v2(A)`: 111-125; the state is the counter and the row number `i`. -/
def countV2 (g : Rows α) : Res Nat := do
  let (n, _) ← g.foldlM (init := (0, 0)) fun (acc, i) row => do
    let acc ← rowV2 g i acc row
    return (acc, i + 1)
  return n

/-- What an edge of the edge range adds: 132, 375.  The first component is the row, the second the entry. -/
def edgeCount (g : Rows α) (e : Nat × (Nat × α)) : Res Nat := do
  let a ← vget g e.1
  let b ← vget g e.2.1
  intersectionSize (ids a) (ids b)

/-- The edges of the rows `[b, e)` as an edge range yields them. -/
def edgeRange (g : Rows α) (b e : Nat) : Run (List (Nat × (Nat × α))) := do
  let p ← Run.lift (Ranges.edgeStart (vget g) b e)
  (fun o => (Ranges.edgeIter (vget g) e).Visits p o : Run _)

/-- `triangle_count_v3(A)`: 128-135. -/
def countV3 (g : Rows α) : Run Nat := do
  let es ← edgeRange g 0 g.length
  Run.lift (es.foldlM (fun acc e => do let k ← edgeCount g e; return acc + k) 0)

/-! ## Threads -/

/-- `triangle_count_async(threads, f)`: algorithms/triangle_count.hpp:71-85.  The workers only read shared data; the results are added in the order
of the futures. -/
def async (threads : Nat) (f : Nat → Res Nat) : Res Nat :=
  (List.range threads).foldlM (init := 0) fun acc tid => do
    let k ← f tid
    return acc + k

/-- `triangle_count_v4(first, last, threads)`: 149-161.  The same worker as in algorithms/triangle_count.hpp. -/
def countV4 (g : Rows α) (threads : Nat) : Res Nat := async threads fun tid => workerFrom g threads tid 0

/-- Rows `[u, ue)`, one after the other. -/
def rowsFrom (g : Rows α) (f : Nat → List (Nat × α) → Res Nat) (u ue acc : Nat) : Res Nat :=
  (List.range' u (ue - u)).foldlM (init := acc) fun acc i => do
    let row ← vget g i
    f acc row

/-- `triangle_count_v5(first, last, threads)`: 177-189.  The bounds of a block are in order, so the loop over `i != end` is one over `[u, ue)`. -/
def countV5 (w : Nat) (g : Rows α) (threads : Nat) : Res Nat :=
  async threads fun tid => do
    let (u, ue) ← block w g.length threads tid
    rowsFrom g (workerRow g) u ue 0

/-- The outer loop of the worker of `triangle_count_v6`: 208-212. -/
def workerV6 (g : Rows α) (threads i acc : Nat) : Res Nat :=
  if _h : 0 < threads ∧ i < g.length then do
    let row ← vget g i
    let acc ← countRow g acc row
    workerV6 g threads (i + threads) acc
  else return acc
termination_by g.length - i
decreasing_by omega

/-- `triangle_count_v6(first, last, threads)`: 204-215. -/
def countV6 (g : Rows α) (threads : Nat) : Res Nat := async threads fun tid => workerV6 g threads tid 0

/-! ## for_each with atomic counters -/

/-- `std::for_each(policy, …)` whose body computes a number from read-only data and adds it atomically to a counter: the additions happen in some order
of the elements. -/
def forEachAdd {β : Type} (l : List β) (f : β → Run Nat) : Run Nat := do
  let l' ← Run.choose fun (l' : List β) => l'.Perm l
  l'.foldlM (init := 0) fun acc x => do
    let k ← f x
    return acc + k

/-- `triangle_count_v7(A, outer, inner)`: 239-251, with the sequential intersection. -/
def countV7 (g : Rows α) : Run Nat := forEachAdd g fun row => Run.lift (workerRow g 0 row)

/-- `triangle_count_v10(A, outer, inner, set)`: 274-285, with the sequential intersection. -/
def countV10 (g : Rows α) : Run Nat :=
  forEachAdd g fun row => forEachAdd row fun v => Run.lift do
    let r ← vget g v.1
    intersectionSize (ids row) (ids r)

/-! ## parallel_reduce -/

/-- One execution of `tbb::parallel_reduce`: how the range is split, and for each split whether the new part is executed by a fresh body. -/
inductive Steals where
  | leaf
  | node (stolen : Bool) (new old : Steals)

/-- Only the splits. -/
def Steals.tree : Steals → Ranges.Tree
  | .leaf => .leaf
  | .node _ a b => .node a.tree b.tree

/-- `parallel_for_sequential(range, op, std::plus{}, acc)`: parallel_for.hpp:78-83; `visits r` are the elements of the range. -/
def reduceSeq {ρ ε : Type} (visits : ρ → Run (List ε)) (op : ε → Res Nat) (r : ρ) (acc : Nat) : Run Nat := do
  let xs ← visits r
  Run.lift (xs.foldlM (fun acc x => do let k ← op x; return acc + k) acc)

/-- `tbb::parallel_reduce` with `std::plus`: parallel_for.hpp:127-130.  A part that is not stolen is continued with the value of the body that did the
other part. -/
def reduceTbb {ρ ε : Type} (s : Ranges.Splitter ρ) (visits : ρ → Run (List ε)) (op : ε → Res Nat) : Steals → ρ → Nat → Run Nat
  | .leaf, r, acc => reduceSeq visits op r acc
  | .node true a b, r, acc => do
    let x ← reduceTbb s visits op b (s.split r).2 acc
    let y ← reduceTbb s visits op a (s.split r).1 0
    return x + y
  | .node false a b, r, acc => do
    let x ← reduceTbb s visits op b (s.split r).2 acc
    reduceTbb s visits op a (s.split r).1 x

/-- `parallel_reduce(range, op, std::plus{}, 0)`: parallel_for.hpp:125-134. -/
def parReduce {ρ ε : Type} (s : Ranges.Splitter ρ) (visits : ρ → Run (List ε)) (op : ε → Res Nat) (r : ρ) : Run Nat :=
  if s.divisible r then do
    let t ← Run.choose fun (t : Steals) => s.Legal t.tree r
    reduceTbb s visits op t r 0
  else reduceSeq visits op r 0

/-- The rows of a part of a cyclic range. -/
def cyclicRows (g : Rows α) (r : Ranges.Cyclic) : Run (List (List (Nat × α))) := fun o => (r.iter g).Visits r.start o

/-- `triangle_count_v12(graph, stride, set)`: 305-317, with the sequential intersection. -/
def countV12 (g : Rows α) (stride : Nat) : Run Nat := do
  let r ← Run.lift (Ranges.mkCyclic g.length stride)
  parReduce Ranges.cyclic (cyclicRows g) (workerRow g 0) r

/-- `triangle_count_v13(graph, stride, set)`: 338-351. -/
def countV13 (g : Rows α) (stride : Nat) : Run Nat := do
  let r ← Run.lift (Ranges.mkCyclic g.length stride)
  parReduce Ranges.cyclic (cyclicRows g) (countRow g 0) r

/-- `triangle_count_v14(graph, set)`: 372-376. -/
def countV14 (g : Rows α) : Run Nat :=
  parReduce Ranges.outerRange (fun r => edgeRange g r.b r.e) (edgeCount g) ⟨0, g.length⟩

/-! ## Splitting by edges -/

/-- Row `u` of the compressed structure from each entry on: 445-447. -/
def upperRow (c : Csr α) (acc : Nat) : List (Nat × α) → Res Nat
  | [] => return acc
  | e :: es => do
    let r ← c.row e.1
    let k ← intersectionSize (ids (e :: es)) (ids r)
    upperRow c (acc + k) es

/-- All of row `u`: 460-463. -/
def fullRow (c : Csr α) (acc : Nat) (row : List (Nat × α)) : Res Nat :=
  row.foldlM (init := acc) fun acc e => do
    let r ← c.row e.1
    let k ← intersectionSize (ids row) (ids r)
    return acc + k

/-- The worker: 440-450, 455-466.  The loop over `u != e` runs from the row of the first edge of the block to the row of the first edge behind it; the timer,
which only prints, is left out. -/
def splitWorker (w : Nat) (c : Csr α) (f : Nat → List (Nat × α) → Res Nat) (threads tid : Nat) : Res Nat := do
  let (v, ve) ← block w c.numEdges threads tid
  let u := c.source v
  let e := c.source ve
  -- a loop whose start is behind its end would leave the structure
  check (u ≤ e)
  (List.range' u (e - u)).foldlM (init := 0) fun acc u => do
    let row ← c.row u
    f acc row

/-- `triangle_count_edgesplit_upper(graph, threads)`: 438-451. -/
def countSplitUpper (w : Nat) (c : Csr α) (threads : Nat) : Res Nat := async threads (splitWorker w c (upperRow c) threads)

/-- `triangle_count_edgesplit(graph, threads)`: 453-467. -/
def countSplit (w : Nat) (c : Csr α) (threads : Nat) : Res Nat := async threads (splitWorker w c (fullRow c) threads)

end NW.Triangle
