import Verif.Model.BcWork
import Verif.Concur
import Verif.Run

/-!
# Model of approx_betweenness_worklist in experimental/algorithms/betweenness_centrality.hpp

The threads take edges from a work list with priorities (`tbbworklist_range2`, worklist.hpp:150-250) and apply the same guarded updates as the serial version (`Model/BcWork`).  Simplifications: the priorities are
not modelled, any item of the work list may be taken next; looking for an item in all buckets, and testing whether all are empty, is one step; what happens between taking the locks of `u` and `v` and releasing
that of `u` is one step, and the items that are pushed afterwards, while the lock of `v` is still held, are computed in that step and pushed one at a time.  The order in which sets are visited may be another one
for every item.  `DELTA` is not zero, and `std::async` runs every thread function in a new thread (the iterator is `thread_local`).
-/

namespace NW.BcAsync
open Spec
open NW.BcWork (Node work)

variable {α : Type}

/-- What a thread is about to do: take an item, test whether the work list is empty (with the item it has taken, if any), take the locks of `u` and `v`, push items; or it has ended. -/
inductive Thr where
  | fetch
  | test (x : Option (Nat × Nat))
  | hold (u v : Nat)
  | push (es : List (Nat × Nat))
  | ended

/-- The nodes, the work list, the threads; `lost` records the items that threads held when they ended. -/
structure St where
  vs : List Node
  W : List (Nat × Nat)
  ts : List Thr
  lost : List (Nat × Nat)

/-- The steps of the threads: experimental betweenness_centrality.hpp:373-493 and worklist.hpp:158-243; `locks` is false for the loop after the threads have been joined (498-551), which has one thread. -/
inductive Step (M inf : Nat) (locks : Bool) (g : Rows α) : St → Res (St ⊕ St) → Prop
  /-- `begin()` or `++work` finds an item: worklist.hpp:182-185, 199-202. -/
  | take {st : St} {i : Nat} {e : Nat × Nat} {pre post : List (Nat × Nat)} (ht : st.ts[i]? = some .fetch) (hW : st.W = pre ++ e :: post) :
      Step M inf locks g st (.ok (.inl { st with W := pre ++ post, ts := st.ts.set i (.test (some e)) }))
  /-- There is none. -/
  | none {st : St} {i : Nat} (ht : st.ts[i]? = some .fetch) (hW : st.W = []) : Step M inf locks g st (.ok (.inl { st with ts := st.ts.set i (.test none) }))
  /-- `work != worklist.end()` is false: worklist.hpp:219, 158-167. -/
  | leave {st : St} {i : Nat} {x : Option (Nat × Nat)} (ht : st.ts[i]? = some (.test x)) (hW : st.W = []) :
      Step M inf locks g st (.ok (.inl { st with ts := st.ts.set i .ended, lost := st.lost ++ x.toList }))
  /-- It is true and the item is not the dummy: experimental betweenness_centrality.hpp:379-380. -/
  | item {st : St} {i u v : Nat} (ht : st.ts[i]? = some (.test (some (u, v)))) (hW : st.W ≠ []) (h0 : (u, v) ≠ (0, 0)) :
      Step M inf locks g st (.ok (.inl { st with ts := st.ts.set i (.hold u v) }))
  /-- The item is the dummy. -/
  | dummy {st : St} {i : Nat} {x : Option (Nat × Nat)} (ht : st.ts[i]? = some (.test x)) (hW : st.W ≠ []) (hx : x.getD (0, 0) = (0, 0)) :
      Step M inf locks g st (.ok (.inl { st with ts := st.ts.set i .fetch }))
  /-- The locks, the guarded update: experimental betweenness_centrality.hpp:402-487.  A thread that locks the same spin lock twice waits forever. -/
  | apply {st : St} {i u v : Nat} {ord : Nat → List Nat → List Nat} (ht : st.ts[i]? = some (.hold u v)) (hl : locks = true → u ≠ v) (hord : ∀ v l, (ord v l).Perm l) :
      Step M inf locks g st ((work M inf ord g st.vs u v).map fun r => .inl { st with vs := r.1, ts := st.ts.set i (.push r.2) })
  /-- `worklist.push_back`: worklist.hpp:232-243. -/
  | push {st : St} {i : Nat} {e : Nat × Nat} {es : List (Nat × Nat)} (ht : st.ts[i]? = some (.push (e :: es))) :
      Step M inf locks g st (.ok (.inl { st with W := st.W ++ [e], ts := st.ts.set i (.push es) }))
  /-- Nothing more to push. -/
  | pushed {st : St} {i : Nat} (ht : st.ts[i]? = some (.push [])) : Step M inf locks g st (.ok (.inl { st with ts := st.ts.set i .fetch }))
  /-- All threads have ended: experimental betweenness_centrality.hpp:494-496. -/
  | join {st : St} (h : ∀ t ∈ st.ts, t = .ended) : Step M inf locks g st (.ok (.inr st))

/-- The state before the threads are started: experimental betweenness_centrality.hpp:361-373. -/
def start (g : Rows α) (s : Nat) (threads : Nat) (vs : List Node) : Res St := do
  let row ← vget g s
  return { vs := vs, W := row.map fun e => (s, e.1), ts := List.replicate threads .fetch, lost := [] }

/-- The search from `s`: the threads, then one more loop over what is left: experimental betweenness_centrality.hpp:350-551. -/
def search (M inf : Nat) (g : Rows α) (threads s : Nat) : Run St := do
  let vs ← Run.lift (BcWork.init M inf g.length s)
  let st ← Run.lift (start g s threads vs)
  let st ← (Runs (Step M inf true g) st : Run St)
  (Runs (Step M inf false g) { st with ts := [.fetch] } : Run St)

/-- What a thread of the way back is about to do: take a vertex, test whether the work list is empty, treat the predecessors `us` of `v`; or it has ended. -/
inductive BThr where
  | fetch
  | test (x : Option Nat)
  | proc (v : Nat) (us : List Nat)
  | ended

/-- The second work list, `delta`, `succs_ct` and `centrality`, the threads; `lost` records the vertices that threads held when they ended and `fin` those that have been treated. -/
structure BSt where
  b : BcWork.Back
  ts : List BThr
  lost : List Nat
  fin : List Nat

/-- `centrality[v] += delta[v]`: experimental betweenness_centrality.hpp:600. -/
def addScore (b : BcWork.Back) (v : Nat) : Res BcWork.Back := do
  let dv ← vget b.delta v
  let c ← vget b.cent v
  let cent ← vset b.cent v (c + dv)
  return { b with cent := cent }

/-- The steps of the threads on the way back: experimental betweenness_centrality.hpp:566-614 and worklist.hpp:85-149.  The work list is one queue, and the dummy is the mark `inf` of unreached vertices. -/
inductive BStep (inf : Nat) (vs : List Node) (s : Nat) : BSt → Res (BSt ⊕ BSt) → Prop
  /-- `begin()` or `++work2` takes the first vertex: worklist.hpp:97-107. -/
  | take {st : BSt} {i v : Nat} {q : List Nat} (ht : st.ts[i]? = some .fetch) (hq : st.b.q = v :: q) :
      BStep inf vs s st (.ok (.inl { st with b := { st.b with q := q }, ts := st.ts.set i (.test (some v)) }))
  /-- There is none. -/
  | none {st : BSt} {i : Nat} (ht : st.ts[i]? = some .fetch) (hq : st.b.q = []) : BStep inf vs s st (.ok (.inl { st with ts := st.ts.set i (.test none) }))
  /-- `work2 != worklist_back.end()` is false: worklist.hpp:128, 93. -/
  | leave {st : BSt} {i : Nat} {x : Option Nat} (ht : st.ts[i]? = some (.test x)) (hq : st.b.q = []) :
      BStep inf vs s st (.ok (.inl { st with ts := st.ts.set i .ended, lost := st.lost ++ x.toList }))
  /-- It is true and the vertex is not the dummy: the loop over the predecessors begins: experimental betweenness_centrality.hpp:578-584. -/
  | item {st : BSt} {i v : Nat} {ord : List Nat → List Nat} (ht : st.ts[i]? = some (.test (some v))) (hq : st.b.q ≠ []) (h0 : v ≠ inf) (hord : ∀ l, (ord l).Perm l) :
      BStep inf vs s st ((vget vs v).map fun x => .inl { st with ts := st.ts.set i (.proc v (ord x.preds)) })
  /-- It is the dummy. -/
  | dummy {st : BSt} {i : Nat} {x : Option Nat} (ht : st.ts[i]? = some (.test x)) (hq : st.b.q ≠ []) (hx : x.getD inf = inf) :
      BStep inf vs s st (.ok (.inl { st with ts := st.ts.set i .fetch }))
  /-- One predecessor, with the lock of it: experimental betweenness_centrality.hpp:585-598. -/
  | pred {st : BSt} {i v u : Nat} {us : List Nat} (ht : st.ts[i]? = some (.proc v (u :: us))) :
      BStep inf vs s st ((BcWork.backPred vs s v st.b u).map fun b => .inl { st with b := b, ts := st.ts.set i (.proc v us) })
  /-- No more predecessors. -/
  | add {st : BSt} {i v : Nat} (ht : st.ts[i]? = some (.proc v [])) :
      BStep inf vs s st ((addScore st.b v).map fun b => .inl { st with b := b, ts := st.ts.set i .fetch, fin := st.fin ++ [v] })
  /-- All threads have ended. -/
  | join {st : BSt} (h : ∀ t ∈ st.ts, t = .ended) : BStep inf vs s st (.ok (.inr st))

/-- The state before the threads of the way back are started: experimental betweenness_centrality.hpp:360, 554-566. -/
def backStart (vs : List Node) (threads : Nat) (cent : List ℚ) : BSt :=
  { b := { q := BcWork.leaves vs, delta := List.replicate vs.length 0, ct := vs.map fun x => x.succs.length, cent := cent }, ts := List.replicate threads .fetch, lost := [], fin := [] }

/-- One source: experimental betweenness_centrality.hpp:349-615. -/
def source (M inf : Nat) (g : Rows α) (threads : Nat) (cent : List ℚ) (s : Nat) : Run (List ℚ) := do
  let st ← search M inf g threads s
  let r ← (Runs (BStep inf st.vs s) (backStart st.vs threads cent) : Run BSt)
  return r.b.cent

/-- `approx_betweenness_worklist(A, sources, num_threads, DELTA)`: experimental betweenness_centrality.hpp:293-617.  The scores are not normalised. -/
def worklist (M inf : Nat) (g : Rows α) (threads : Nat) (sources : List Nat) : Run (List ℚ) :=
  sources.foldlM (source M inf g threads) (List.replicate g.length 0)

end NW.BcAsync
