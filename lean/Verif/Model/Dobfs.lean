import Verif.Concur
import Verif.Spec.Walk

/-!
# Model of the direction-optimizing parallel breadth-first search: algorithms/bfs.hpp:160-311

The parallel loops are modelled by tasks that take atomic steps in any order: one task per queued vertex in a top-down round, one per vertex
in a bottom-up round.  This allows more schedules than TBB does (which runs some tasks one after the other).  Simplifications: plain accesses to `parents` are taken
to be atomic and sequentially consistent; the bit vectors are lists of Booleans (their words are C47);
filling `curr` from the queues is a sequential loop (atomic or-operations commute); the sums computed by the reductions are the sums of the tasks'
counts (`std::plus` with initial value 0, C46).  `inf` is the null vertex, the maximum of the vertex type.
-/

namespace NW.Dobfs
open Spec

variable {α : Type}

/-- The arguments: the graph, its transpose, the number of bins `n` = pow2(ceil_log2(num_bins)), `alpha`, `beta`, and the size `M` of the
compressed neighbour lists: bfs.hpp:161-168. -/
structure Args (α : Type) where
  out : Rows α
  inn : Rows α
  bins : Nat
  M : Nat
  alpha : Nat
  beta : Nat
  inf : Nat

/-- What a top-down task does next: look at the next neighbour, try to claim `v`, or enqueue `v`. -/
inductive TdPc where
  | idle
  | tryCas (v : Nat)
  | push (v : Nat)

/-- The task for the queued vertex `u`: bfs.hpp:277-291. -/
structure TdTask (α : Type) where
  u : Nat
  rest : List (Nat × α)
  pc : TdPc
  count : Nat

def TdTask.finished (t : TdTask α) : Prop := t.rest = [] ∧ t.pc = .idle

/-- One atomic step of a top-down task: the read of `parents[v]` 282, the compare-and-swap 284, and `push_back` with the count 285-286. -/
def tdTask (c : Args α) (q2 : List (List Nat)) (par : List Nat) (t : TdTask α) : Res (List (List Nat) × List Nat × TdTask α) :=
  match t.pc with
  | .idle =>
    match t.rest with
    | [] => return (q2, par, t)
    | x :: xs => do
      let cv ← vget par x.1
      if cv = c.inf then return (q2, par, { t with rest := xs, pc := .tryCas x.1 })
      else return (q2, par, { t with rest := xs })
  | .tryCas v => do
    let cv ← vget par v
    if cv = c.inf then
      let par' ← vset par v t.u
      return (q2, par', { t with pc := .push v })
    else return (q2, par, { t with pc := .idle })
  | .push v => do
    let b ← vget q2 (t.u % c.bins)
    let q2' ← vset q2 (t.u % c.bins) (b ++ [v])
    let r ← vget c.out v
    return (q2', par, { t with pc := .idle, count := t.count + r.length })

/-- The state of the bottom-up task of a vertex: not started; a parent found; its bit set as well; finished, having counted or not. -/
inductive BuTask where
  | start
  | found (v : Nat)
  | marked (v : Nat)
  | done (counted : Bool)
  deriving DecidableEq

/-- The first in-neighbour in the frontier: bfs.hpp:215-217. -/
def scan (front : List Bool) : List (Nat × α) → Res (Option Nat)
  | [] => return none
  | x :: xs => do
    let b ← vget front x.1
    if b then return some x.1 else scan front xs

/-- One atomic step of the bottom-up task of `u`: bfs.hpp:213-225. -/
def buTask (c : Args α) (par : List Nat) (front curr : List Bool) (u : Nat) (t : BuTask) : Res (List Nat × List Bool × BuTask) :=
  match t with
  | .start => do
    let pu ← vget par u
    if pu = c.inf then
      let r ← vget c.inn u
      let f ← scan front r
      match f with
      | some v => return (par, curr, .found v)
      | none => return (par, curr, .done false)
    else return (par, curr, .done false)
  | .found v => do
    let curr' ← vset curr u true
    return (par, curr', .marked v)
  | .marked v => do
    let par' ← vset par u v
    return (par', curr, .done true)
  | .done b => return (par, curr, .done b)

def BuTask.isDone : BuTask → Bool
  | .done _ => true
  | _ => false

/-- Where the algorithm stands: at the head of the outer loop, in a top-down round, at `do`, or in a bottom-up round. -/
inductive State (α : Type) where
  | head (q1 : List (List Nat)) (par : List Nat) (front curr : List Bool) (edges scout : Nat)
  | td (ts : List (TdTask α)) (q2 : List (List Nat)) (par : List Nat) (front curr : List Bool) (edges : Nat)
  | buHead (awake : Nat) (par : List Nat) (front curr : List Bool) (edges : Nat)
  | bu (ts : List BuTask) (old : Nat) (par : List Nat) (front curr : List Bool) (edges : Nat)

/-- The task created for a queued vertex: bfs.hpp:271-279. -/
def mkTask (c : Args α) (u : Nat) : Res (TdTask α) := do
  let r ← vget c.out u
  return { u := u, rest := r, pc := .idle, count := 0 }

/-- The branch and what precedes the parallel work: bfs.hpp:184-208 (bottom-up), 242-243 (top-down).  `edges_to_check -= scout_count` wraps. -/
def headStep (c : Args α) (q1 : List (List Nat)) (par : List Nat) (front curr : List Bool) (edges scout : Nat) :
    Res (State α ⊕ List Nat) :=
  if c.alpha = 0 then .error .divByZero
  else if scout > edges / c.alpha then do
    let curr' ← q1.flatten.foldlM (fun cu u => vset cu u true) curr
    return .inl (.buHead (q1.map List.length).sum par front curr' edges)
  else do
    let ts ← q1.flatten.mapM (mkTask c)
    return .inl (.td ts (List.replicate c.bins []) par front curr ((edges + 2 ^ 64 - scout) % 2 ^ 64))

/-- The end of a round: bfs.hpp:297-307. -/
def tail (q2 : List (List Nat)) (par : List Nat) (front curr : List Bool) (edges scout : Nat) : Res (State α ⊕ List Nat) :=
  if q2.all List.isEmpty then return .inr par
  else return .inl (.head q2 par front curr edges scout)

/-- The end of a bottom-up round: bfs.hpp:231-241; `q2` are the bins filled from `curr`. -/
def buAfter (c : Args α) (awake old : Nat) (q2 : List (List Nat)) (par : List Nat) (front curr : List Bool) (edges : Nat) :
    Res (State α ⊕ List Nat) :=
  if awake ≥ old then return .inl (.buHead awake par front curr edges)
  else if c.beta = 0 then .error .divByZero
  else if awake > c.out.length / c.beta then return .inl (.buHead awake par front curr edges)
  else if awake = 0 then return .inr par
  else tail q2 par front curr edges 1

/-- The bins after the parallel loop over the set bits of `curr`, which pushes each `i` to `q2[i % n]` in some order: bfs.hpp:235-239. -/
def Fill (bins : Nat) (curr : List Bool) (q2 : List (List Nat)) : Prop :=
  q2.length = bins ∧ ∀ (b : Nat) (q : List Nat), q2[b]? = some q → q.Perm ((List.range curr.length).filter (fun i => curr[i]? = some true ∧ i % bins = b))

/-- The steps of the algorithm: bfs.hpp:184-308. -/
inductive Step (c : Args α) : State α → Res (State α ⊕ List Nat) → Prop
  | head {q1 par front curr edges scout} : Step c (.head q1 par front curr edges scout) (headStep c q1 par front curr edges scout)
  | tdStep {ts q2 par front curr edges} {i : Nat} {t : TdTask α} (hi : ts[i]? = some t) (hf : ¬ t.finished) :
      Step c (.td ts q2 par front curr edges)
        ((tdTask c q2 par t).map fun x => .inl (.td (ts.set i x.2.2) x.1 x.2.1 front curr edges))
  | tdJoin {ts q2 par front curr edges} (hf : ∀ t ∈ ts, t.finished) :
      Step c (.td ts q2 par front curr edges) (tail q2 par front curr edges (ts.map TdTask.count).sum)
  | buHead {awake par front curr edges} : Step c (.buHead awake par front curr edges)
      (.ok (.inl (.bu (List.replicate c.out.length .start) awake par curr (List.replicate c.out.length false) edges)))
  | buStep {ts old par front curr edges} {i : Nat} {t : BuTask} (hi : ts[i]? = some t) (hf : t.isDone = false) :
      Step c (.bu ts old par front curr edges)
        ((buTask c par front curr i t).map fun x => .inl (.bu (ts.set i x.2.2) old x.1 front x.2.1 edges))
  | buJoin {ts old par front curr edges} {q2 : List (List Nat)} (hf : ∀ t ∈ ts, t.isDone = true) (hq : Fill c.bins curr q2) :
      Step c (.bu ts old par front curr edges) (buAfter c (ts.count (.done true)) old q2 par front curr edges)

/-- The start: bfs.hpp:169-182.  `garbage` is the content of the uninitialised bit vector `front`. -/
def init (c : Args α) (root : Nat) (garbage : List Bool) : Res (State α) := do
  let r ← vget c.out root
  let par ← vset (List.replicate c.out.length c.inf) root root
  let q1 ← vset (List.replicate c.bins []) (root % c.bins) [root]
  return .head q1 par garbage (List.replicate c.out.length false) c.M r.length

end NW.Dobfs
