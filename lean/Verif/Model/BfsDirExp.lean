import Verif.Model.BfsExp

/-!
# Model of the direction-optimizing searches of experimental/algorithms/bfs.hpp: `bfs_v1`, `bfs_v2`, with `BU_step`, `TD_step`, `queue_to_bitmap`,
`bitmap_to_queue` and `flush`

As in `Model/Dobfs`, the tasks of a parallel loop take atomic steps in any order.  The thread that runs a task is chosen at each push; a task's thread does not
change in the code, so this allows more than the code does.  Two threads never push to the same queue, so a push is one step.
The line numbers are those of experimental/algorithms/bfs.hpp.
-/

namespace NW.BfsDirExp
open Spec Dobfs

variable {α : Type}

/-- The two versions. -/
inductive Ver where
  | v1 | v2
  deriving DecidableEq

/-- The write of one thread's queue: 458-463. -/
def copyBin (off : List Nat) (lq : List (List Nat)) (queue : List Nat) (i : Nat) : Res (List Nat) := do
  let k ← vget off i
  let b ← vget lq i
  b.zipIdx.foldlM (fun q x => vset q (k + x.2) x.1) queue

/-- The offsets `size_array`: 447-455. -/
def offsets : Nat → List (List Nat) → List Nat
  | _, [] => []
  | k, b :: bs => k :: offsets (k + b.length) bs

/-- `flush(lqueue, queue)`: 446-464.  `ord` is the order in which the queues are copied. -/
def flush (ord : List Nat) (lq : List (List Nat)) (queue : List Nat) : Res (List (List Nat) × List Nat) := do
  let size := (lq.map List.length).sum
  let q0 := queue.take size ++ List.replicate (size - queue.length) 0
  let q ← ord.foldlM (copyBin (offsets 0 lq) lq) q0
  return (lq.map fun _ => [], q)

/-- `queue_to_bitmap(queue, bitmap)`: 426-431. -/
def queueToBitmap (queue : List Nat) (bits : List Bool) : Res (List Bool) := queue.foldlM (fun b u => vset b u true) bits

/-- `bitmap_to_queue(bitmap, lqueue)`: 432-440.  `p` lists the set bits, in the order they are reached, each with the index of the thread. -/
def bitmapToQueue (p : List (Nat × Nat)) (lq : List (List Nat)) : Res (List (List Nat)) :=
  p.foldlM (fun q x => do
    let b ← vget q x.2
    vset q x.2 (b ++ [x.1])) lq

/-- One atomic step of a top-down task that runs on the thread `w`: 541-550 (`bfs_v1`), 410-420 (`TD_step`).  But for the queue, the steps are those of
the search in algorithms/bfs.hpp (`Dobfs.tdTask`). -/
def tdTask (c : Args α) (w : Nat) (lq : List (List Nat)) (par : List Nat) (t : TdTask α) : Res (List (List Nat) × List Nat × TdTask α) :=
  match t.pc with
  | .push v => do
    let b ← vget lq w
    let lq' ← vset lq w (b ++ [v])
    let r ← vget c.out v
    return (lq', par, { t with pc := .idle, count := t.count + r.length })
  | _ => Dobfs.tdTask c lq par t

/-- Where the algorithm stands, as in `Dobfs.State`. -/
inductive State (α : Type) where
  | head (queue : List Nat) (lq : List (List Nat)) (par : List Nat) (front curr : List Bool) (edges scout : Nat)
  | td (ts : List (TdTask α)) (queue : List Nat) (lq : List (List Nat)) (par : List Nat) (front curr : List Bool) (edges : Nat)
  | buHead (awake : Nat) (queue : List Nat) (lq : List (List Nat)) (par : List Nat) (front curr : List Bool) (edges : Nat)
  | bu (ts : List BuTask) (old : Nat) (queue : List Nat) (lq : List (List Nat)) (par : List Nat) (front curr : List Bool) (edges : Nat)

/-- The test of the `while` loop, the choice of the direction, and what precedes the parallel work: 493-498 and 534-540 (`bfs_v1`), 581-585 and 596
(`bfs_v2`). -/
def headStep (ver : Ver) (c : Args α) (queue : List Nat) (lq : List (List Nat)) (par : List Nat) (front curr : List Bool) (edges scout : Nat) :
    Res (State α ⊕ List Nat) :=
  if queue = [] then return .inr par
  else if c.alpha = 0 then .error .divByZero
  else if scout > edges / c.alpha then
    match ver with
    | .v1 => do
      let curr' ← queueToBitmap queue curr
      return .inl (.buHead queue.length queue lq par front curr' edges)
    | .v2 => do
      let front' ← queueToBitmap queue front
      return .inl (.buHead queue.length queue lq par front' curr edges)
  else do
    let ts ← queue.mapM (mkTask c)
    return .inl (.td ts queue lq par front curr ((edges + 2 ^ 64 - scout) % 2 ^ 64))

/-- The start of a bottom-up round: the swap and the clearing, 502-504 (`bfs_v1`); the clearing, 376 (`bfs_v2`). -/
def buStart (ver : Ver) (c : Args α) (awake : Nat) (queue : List Nat) (lq : List (List Nat)) (par : List Nat) (front curr : List Bool) (edges : Nat) : State α :=
  match ver with
  | .v1 => .bu (List.replicate c.out.length .start) awake queue lq par curr (List.replicate c.out.length false) edges
  | .v2 => .bu (List.replicate c.inn.length .start) awake queue lq par front (List.replicate c.out.length false) edges

/-- The end of a bottom-up round: the condition of the loop, 524 and 590, and what follows, 526-533 (`bfs_v1`), 591-593 (`bfs_v2`).  `p` and `ord`: see
`bitmapToQueue` and `flush`. -/
def buAfter (ver : Ver) (c : Args α) (p : List (Nat × Nat)) (ord : List Nat) (awake old : Nat) (queue : List Nat) (lq : List (List Nat)) (par : List Nat)
    (front curr : List Bool) (edges : Nat) : Res (State α ⊕ List Nat) :=
  if awake ≥ old then return .inl (.buHead awake queue lq par front curr edges)
  else if c.beta = 0 then .error .divByZero
  else if awake > c.out.length / c.beta then return .inl (.buHead awake queue lq par front curr edges)
  else if ver = .v1 ∧ awake = 0 then return .inr par
  else do
    let lq' ← bitmapToQueue p lq
    let (lq'', queue') ← flush ord lq' queue
    return .inl (.head queue' lq'' par front curr edges 1)

/-- `p` lists the set bits with threads. -/
def Listing (threads : Nat) (bits : List Bool) (p : List (Nat × Nat)) : Prop :=
  (p.map Prod.fst).Perm ((List.range bits.length).filter fun i => bits[i]? = some true) ∧ ∀ x ∈ p, x.2 < threads

/-- The bit vectors after a bottom-up round: `std::swap(front, cur)` in `bfs_v2`, 589. -/
def swapV (ver : Ver) (front curr : List Bool) : List Bool × List Bool :=
  match ver with
  | .v1 => (front, curr)
  | .v2 => (curr, front)

/-- The bit vector with the new frontier: `curr` in `bfs_v1`, 530; `front` in `bfs_v2`, after the swap, 591. -/
def bitsV (ver : Ver) (front curr : List Bool) : List Bool :=
  match ver with
  | .v1 => (swapV ver front curr).2
  | .v2 => (swapV ver front curr).1

/-- The steps of the algorithms: 493-558 (`bfs_v1`), 581-602 with 373-424 (`bfs_v2`). -/
inductive Step (ver : Ver) (c : Args α) (threads : Nat) : State α → Res (State α ⊕ List Nat) → Prop
  | head {queue lq par front curr edges scout} : Step ver c threads (.head queue lq par front curr edges scout)
      (headStep ver c queue lq par front curr edges scout)
  | tdStep {ts queue lq par front curr edges} {i w : Nat} {t : TdTask α} (hi : ts[i]? = some t) (hf : ¬ t.finished) (hw : w < threads) :
      Step ver c threads (.td ts queue lq par front curr edges)
        ((tdTask c w lq par t).map fun x => .inl (.td (ts.set i x.2.2) queue x.1 x.2.1 front curr edges))
  | tdJoin {ts queue lq par front curr edges} {ord : List Nat} (hf : ∀ t ∈ ts, t.finished) (ho : ord.Perm (List.range lq.length)) :
      Step ver c threads (.td ts queue lq par front curr edges)
        ((flush ord lq queue).map fun x => .inl (.head x.2 x.1 par front curr edges (ts.map TdTask.count).sum))
  | buHead {awake queue lq par front curr edges} : Step ver c threads (.buHead awake queue lq par front curr edges)
      (.ok (.inl (buStart ver c awake queue lq par front curr edges)))
  | buStep {ts old queue lq par front curr edges} {i : Nat} {t : BuTask} (hi : ts[i]? = some t) (hf : t.isDone = false) :
      Step ver c threads (.bu ts old queue lq par front curr edges)
        ((buTask c par front curr i t).map fun x => .inl (.bu (ts.set i x.2.2) old queue lq x.1 front x.2.1 edges))
  | buJoin {ts old queue lq par front curr edges} {p : List (Nat × Nat)} {ord : List Nat} (hf : ∀ t ∈ ts, t.isDone = true)
      (hp : Listing threads (bitsV ver front curr) p) (ho : ord.Perm (List.range lq.length)) :
      Step ver c threads (.bu ts old queue lq par front curr edges)
        (buAfter ver c p ord (ts.count (.done true)) old queue lq par (swapV ver front curr).1 (swapV ver front curr).2 edges)

/-- The start: 472-491 (`bfs_v1`), 567-579 (`bfs_v2`).  `garbage` is the content of the uninitialised bit vector `front`. -/
def init (c : Args α) (root : Nat) (garbage : List Bool) : Res (State α) := do
  let r ← vget c.out root
  let par ← vset (List.replicate c.out.length c.inf) root root
  return .head [root] (List.replicate c.bins []) par garbage (List.replicate c.out.length false) c.M r.length

end NW.BfsDirExp
