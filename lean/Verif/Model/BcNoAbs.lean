import Verif.Model.BcWork
import Verif.Concur

/-!
# Model of approx_betweenness_worklist_noabstraction in experimental/algorithms/betweenness_centrality.hpp

The line numbers are those of that file.  `DELTA` is `dl`; `asyncv1` is the constant `true`, so that 849-982 is never executed and not modelled.  At least one thread is assumed.  Path counts have an unsigned
type with `M` values; `inf` is the number that marks unreached vertices.  Levels do not wrap around.  Scores are rational numbers: rounding is not modelled.  A `forward_list` is a list; a missing entry of
`edge_l_s` is created as `(0, 0)` by `operator[]`, so the map is a function.  `num_buckets` is the number of buckets; it is kept from one source to the next.

An item is treated with the locks of both its ends, so the treatment of an item is one step, and a parallel loop over a bucket treats its items in some order.  What the code reads after it has released the
locks (`vdata->l`, `vdata->succs`) is read in the same step.
-/

namespace NW.BcNoAbs
open Spec
open NW.BcWork (Node modify guardCn guardSp guardFu guardUs)

variable {α : Type}

/-- `apply_cn`: 641-644. -/
def applyCn (inf u v : Nat) (vs : List Node) : Res (List Node) :=
  modify vs u fun x => { x with succs := x.succs.filter (· ≠ v), edge := fun w => if w = v then (inf, (x.edge v).2) else x.edge w }

/-- `apply_spfu`: 646-655. -/
def applySpfu (u v : Nat) (vs : List Node) : Res (List Node) := do
  let ud ← vget vs u
  let vs ← modify vs v fun x => { x with l := ud.l + 1, pc := ud.pc, preds := [], succs := [] }
  let vs ← modify vs u fun x => { x with succs := v :: x.succs, edge := fun w => if w = v then (x.l, x.pc) else x.edge w }
  modify vs v fun x => { x with preds := u :: x.preds }

/-- `apply_fu`: 657-665. -/
def applyFu (M u v : Nat) (vs : List Node) : Res (List Node) := do
  let ud ← vget vs u
  let vs ← modify vs v fun x => { x with pc := (x.pc + ud.pc) % M }
  let vs ← modify vs u fun x => { x with succs := v :: x.succs, edge := fun w => if w = v then (x.l, x.pc) else x.edge w }
  modify vs v fun x => { x with preds := u :: x.preds }

/-- `apply_us`: 671-674. -/
def applyUs (M u v : Nat) (vs : List Node) : Res (List Node) := do
  let ud ← vget vs u
  let vs ← modify vs v fun x => { x with pc := (x.pc + ud.pc + (M - (ud.edge v).2)) % M }
  modify vs u fun x => { x with edge := fun w => if w = v then ((x.edge v).1, x.pc) else x.edge w }

/-- The buckets of items. -/
abbrev Buckets := List (List (Nat × Nat))

/-- `priority` for level `l`: 758. -/
def priority (dl l : Nat) : Res Nat := if dl = 0 then .error .divByZero else .ok ((l + 1) / dl)

/-- `grow_to_at_least` and `push_back`: 760-768. -/
def push (bs : Buckets) (p : Nat) (x : Nat × Nat) : Res Buckets := do
  let bs := bs ++ List.replicate (p + 1 - bs.length) []
  let b ← vget bs p
  vset bs p (b ++ [x])

/-- The loops that push the items `es` with the level of `v`: 757-769, 772-784, 795-807, 811-823. -/
def pushAll (dl : Nat) (vs : List Node) (v : Nat) (bs : Buckets) (es : List (Nat × Nat)) : Res Buckets := do
  let x ← vget vs v
  es.foldlM (fun bs e => do
    let p ← priority dl x.l
    push bs p e) bs

/-- `async1`: 720-831. -/
def treat (M inf dl : Nat) (g : Rows α) (st : List Node × Buckets) (e : Nat × Nat) : Res (List Node × Buckets) := do
  let vd ← vget st.1 e.2
  let ud ← vget st.1 e.1
  if guardCn inf e.2 ud vd then
    let vs ← applyCn inf e.1 e.2 st.1
    return (vs, st.2)
  else if guardSp ud vd then
    let vs ← applySpfu e.1 e.2 st.1
    let row ← vget g e.2
    let bs ← pushAll dl vs e.2 st.2 (row.map fun a => (e.2, a.1))
    let bs ← pushAll dl vs e.2 bs (vd.preds.map fun w => (w, e.2))
    return (vs, bs)
  else if guardFu e.2 ud vd then
    let vs ← applyFu M e.1 e.2 st.1
    let vd ← vget vs e.2
    if vd.succs.isEmpty then return (vs, st.2)
    else
      let row ← vget g e.2
      let bs ← pushAll dl vs e.2 st.2 (row.map fun a => (e.2, a.1))
      return (vs, bs)
  else if guardUs e.2 ud vd then
    let vs ← applyUs M e.1 e.2 st.1
    let vd ← vget vs e.2
    let bs ← pushAll dl vs e.2 st.2 (vd.succs.map fun w => (e.2, w))
    return (vs, bs)
  else return st

/-- The inner loop `while (buckets[top_level].empty() && top_level < buckets.size()) top_level++`, on the buckets from `top_level` on: 844-846.  It reads the bucket before it tests the index.  With `lenient` the
read past the end gives some value (and the loop ends, whichever); otherwise it is a fault. -/
def skip (lenient : Bool) : Buckets → Nat → Res Nat
  | [], top => if lenient then .ok top else .error .outOfBounds
  | b :: bs, top => if b.isEmpty then skip lenient bs (top + 1) else .ok top

/-- The state of the search. -/
structure St where
  top : Nat
  bs : Buckets
  vs : List Node

/-- One round of the loop, with the items in the order `cur`: 835-846. -/
def round (lenient : Bool) (M inf dl : Nat) (g : Rows α) (st : St) (cur : List (Nat × Nat)) : Res St := do
  let bs ← vset st.bs st.top []
  let r ← cur.foldlM (treat M inf dl g) (st.vs, bs)
  let top ← skip lenient (r.2.drop st.top) st.top
  return { top := top, bs := r.2, vs := r.1 }

/-- The loop over the buckets: 834-847.  In a parallel round the items may come in any order; there a thread that locks the two ends of a loop waits forever, and there is no step. -/
def Round (lenient : Bool) (M inf dl : Nat) (g : Rows α) (threads thresh : Nat) (st : St) (o : Res (St ⊕ St)) : Prop :=
  match st.bs[st.top]? with
  | none => o = .ok (.inr st)
  | some b =>
    if threads ≠ 1 ∧ thresh < b.length then (∀ e ∈ b, e.1 ≠ e.2) ∧ ∃ cur : List (Nat × Nat), cur.Perm b ∧ o = (round lenient M inf dl g st cur).map .inl
    else o = (round lenient M inf dl g st b).map .inl

/-- `reset` and the source: 684-711.  The slices of the threads cover all vertices; `edge_l_s` is not reset. -/
def reset (M inf : Nat) (vs : List Node) (s : Nat) : Res (List Node) :=
  modify (vs.map fun x => { x with l := inf, pc := 0, preds := [], succs := [] }) s fun x => { x with l := 0, pc := 1 % M }

/-- The buckets at the beginning: 714-718. -/
def firstBuckets (g : Rows α) (num s : Nat) : Res Buckets := do
  let row ← vget g s
  row.foldlM (fun bs a => do
    let b ← vget bs 0
    vset bs 0 (b ++ [(s, a.1)])) (List.replicate num [])

/-- What a thread of `backprocess` is about to do, with its `buffer`: look for a vertex; treat the predecessors `us` of `v`; or it has ended. -/
inductive Thr where
  | look (buf : List Nat)
  | proc (v : Nat) (temp : ℚ) (us : List Nat) (buf : List Nat)
  | ended

/-- `myqueue2`, `delta`, `succs_ct`, `centrality`, the locks that are held, the threads. -/
structure BSt where
  q : List Nat
  delta : List ℚ
  ct : List Nat
  cent : List ℚ
  locked : List Nat
  ts : List Thr

/-- Beginning with `v`: `temp` and the list of the predecessors: 1038-1040. -/
def begin (vs : List Node) (delta : List ℚ) (v : Nat) (buf : List Nat) : Res Thr := do
  let dv ← vget delta v
  let x ← vget vs v
  return .proc v ((1 + dv) / (x.pc : ℚ)) x.preds buf

/-- One predecessor `u`, by thread `i`: 1041-1056.  The lock of a vertex that is put into a list is not released. -/
def backPred (vs : List Node) (s : Nat) (locks : Bool) (st : BSt) (i v : Nat) (temp : ℚ) (u : Nat) (us buf : List Nat) : Res BSt := do
  let du ← vget st.delta u
  let delta ← vset st.delta u (du + temp)
  let c ← vget st.ct u
  let c' := if c = 0 then 2 ^ 64 - 1 else c - 1
  let ct ← vset st.ct u c'
  if c' = 0 ∧ u ≠ s then
    let x ← vget vs u
    let delta ← vset delta u ((du + temp) * (x.pc : ℚ))
    let locked := if locks then u :: st.locked else st.locked
    if buf.length < 100 then return { st with delta := delta, ct := ct, locked := locked, ts := st.ts.set i (.proc v temp us (buf ++ [u])) }
    else return { st with delta := delta, ct := ct, locked := locked, q := st.q ++ [u], ts := st.ts.set i (.proc v temp us buf) }
  else return { st with delta := delta, ct := ct, ts := st.ts.set i (.proc v temp us buf) }

/-- `centrality[v] += delta[v]`: 1057. -/
def addScore (st : BSt) (i v : Nat) (buf : List Nat) : Res BSt := do
  let dv ← vget st.delta v
  let c ← vget st.cent v
  let cent ← vset st.cent v (c + dv)
  return { st with cent := cent, ts := st.ts.set i (.look buf) }

/-- `backprocess`, with `locks` when `parallel`: 1019-1059.  A parallel thread tries `try_pop` eleven times before it ends; here it may end as soon as the queue is empty. -/
inductive BStep (vs : List Node) (s : Nat) (locks : Bool) : BSt → Res (BSt ⊕ BSt) → Prop
  /-- The buffer has a vertex: 1024-1027. -/
  | own {st : BSt} {i v : Nat} {buf : List Nat} (ht : st.ts[i]? = some (.look (v :: buf))) :
      BStep vs s locks st ((begin vs st.delta v buf).map fun t => .inl { st with ts := st.ts.set i t })
  /-- `try_pop` finds one: 1029-1034. -/
  | pop {st : BSt} {i v : Nat} {q : List Nat} (ht : st.ts[i]? = some (.look [])) (hq : st.q = v :: q) :
      BStep vs s locks st ((begin vs st.delta v []).map fun t => .inl { st with q := q, ts := st.ts.set i t })
  /-- It finds none: 1036. -/
  | leave {st : BSt} {i : Nat} (ht : st.ts[i]? = some (.look [])) (hq : st.q = []) : BStep vs s locks st (.ok (.inl { st with ts := st.ts.set i .ended }))
  /-- A predecessor; the lock of it must be free. -/
  | pred {st : BSt} {i v : Nat} {temp : ℚ} {u : Nat} {us buf : List Nat} (ht : st.ts[i]? = some (.proc v temp (u :: us) buf)) (hl : locks = true → u ∉ st.locked) :
      BStep vs s locks st ((backPred vs s locks st i v temp u us buf).map .inl)
  /-- No more predecessors. -/
  | add {st : BSt} {i v : Nat} {temp : ℚ} {buf : List Nat} (ht : st.ts[i]? = some (.proc v temp [] buf)) : BStep vs s locks st ((addScore st i v buf).map .inl)
  /-- All threads have ended. -/
  | join {st : BSt} (h : ∀ t ∈ st.ts, t = .ended) : BStep vs s locks st (.ok (.inr st))

/-- The state before the way back: 690-692, 983-1017.  The threads put the vertices without successors into the queue in some order `q`. -/
def backStart (vs : List Node) (q : List Nat) (threads : Nat) (cent : List ℚ) : BSt :=
  { q := q, delta := List.replicate vs.length 0, ct := vs.map fun x => x.succs.length, cent := cent, locked := [], ts := List.replicate threads (.look []) }

/-- The way back: 983-1070.  One thread puts the vertices into the queue in their order. -/
def back (vs : List Node) (s threads : Nat) (cent : List ℚ) : Run (List ℚ) := do
  if threads = 1 then
    let st ← (Runs (BStep vs s false) (backStart vs (BcWork.leaves vs) 1 cent) : Run BSt)
    return st.cent
  else
    let q ← Run.choose fun q : List Nat => q.Perm (BcWork.leaves vs)
    let st ← (Runs (BStep vs s true) (backStart vs q threads cent) : Run BSt)
    let st ← (Runs (BStep vs s false) { st with ts := [.look []] } : Run BSt)
    return st.cent

/-- What is kept from one source to the next. -/
structure Kept where
  vs : List Node
  num : Nat
  cent : List ℚ

/-- `innerfunc`: 683-1073. -/
def source (lenient : Bool) (M inf dl : Nat) (g : Rows α) (threads thresh : Nat) (k : Kept) (s : Nat) : Run Kept := do
  let vs ← Run.lift (reset M inf k.vs s)
  let bs ← Run.lift (firstBuckets g k.num s)
  let st ← (Runs (Round lenient M inf dl g threads thresh) { top := 0, bs := bs, vs := vs } : Run St)
  let cent ← back st.vs s threads k.cent
  return { vs := st.vs, num := st.bs.length, cent := cent }

/-- The division by the largest score; 0 / 0 is not a number: 1079-1123. -/
def normalise (c : List ℚ) : List (Option ℚ) := c.map fun x => if c.foldl max 0 = 0 then none else some (x / c.foldl max 0)

/-- `approx_betweenness_worklist_noabstraction(A, sources, num_threads, par_thresh, DELTA)`: 619-1125. -/
def noAbstraction (lenient : Bool) (M inf dl : Nat) (g : Rows α) (sources : List Nat) (threads thresh : Nat) : Run (List (Option ℚ)) := do
  let k ← sources.foldlM (source lenient M inf dl g threads thresh)
    { vs := List.replicate g.length { l := 0, pc := 0, preds := [], succs := [], edge := fun _ => (0, 0) }, num := 10, cent := List.replicate g.length 0 }
  return normalise k.cent

end NW.BcNoAbs
