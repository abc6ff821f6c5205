import Verif.Team
import Verif.Spec.Walk

/-!
# Model of the parallel betweenness routine: algorithms/betweenness_centrality.hpp:220-326, 348-362

Every source is handled by a thread (`std::async`), which runs its parallel loops as tasks; all tasks of all threads take atomic steps in any order (this allows more
schedules than the library does).  The threads share only `bc`.  Simplifications: the threads exist from the start; scores are exact rationals; `path_counts` holds
naturals modulo `M` (for a floating-point counting type: exact as long as the counts are exact); `fetch_add` of a floating-point number (a compare-and-swap loop)
is one step; the bit vector `succ`, indexed by the position `&v - &edges` of the entry in the column array, is a list of bits for every row; a `concurrent_vector` is a list;
division by a path count of zero is a fault.
-/

namespace NW.BrandesPar
open Spec

variable {α : Type}

/-- How `path_counts[u] / path_counts[v]` is computed: in a floating-point type (without rounding) or in an integral type. -/
inductive Division where
  | exact
  | integral
  deriving DecidableEq

/-- The graph, `num_bins` (a power of two; `u & bin_mask` is `u % bins`), the largest vertex id, the modulus of the counting type, and its kind of division:
betweenness_centrality.hpp:220-230. -/
structure Args (α : Type) where
  g : Rows α
  bins : Nat
  inf : Nat
  M : Nat
  dv : Division

/-- `path_counts[u] / path_counts[v]`: betweenness_centrality.hpp:306. -/
def quot (dv : Division) (a b : Nat) : Res ℚ :=
  if b = 0 then .error .divByZero
  else match dv with
    | .exact => return (a : ℚ) / (b : ℚ)
    | .integral => return ((a / b : Nat) : ℚ)

/-- The arrays of one thread: betweenness_centrality.hpp:237-244. -/
structure Mem where
  levels : List Nat
  pc : List Nat
  succ : List (List Bool)

/-- What a forward task does next with the neighbour `v` at its position: read `levels[v]`, read `path_counts[u]`, add to `path_counts[v]`, set the bit of the edge, try to
claim `v`, enqueue `v`.  The Boolean is `lvl_v == infinity`. -/
inductive FPc where
  | read
  | load (unk : Bool)
  | add (unk : Bool) (x : Nat)
  | mark (unk : Bool)
  | cas
  | push

/-- The task of the queued vertex `u`: betweenness_centrality.hpp:257-279. -/
structure FTask where
  u : Nat
  row : List Nat
  pos : Nat
  pc : FPc

def FTask.finished (t : FTask) : Prop := t.row.length ≤ t.pos

/-- On to the next neighbour. -/
def FTask.next (t : FTask) : FTask := { t with pos := t.pos + 1, pc := .read }

/-- One atomic step of a forward task: 264 (read), 269-271 (condition, load, add), 271 (mark), 278 (compare and swap), 279 (push). -/
def fTask (c : Args α) (lvl : Nat) (q2 : List (List Nat)) (m : Mem) (t : FTask) : Res (List (List Nat) × Mem × FTask) := do
  let v ← vget t.row t.pos
  match t.pc with
  | .read =>
    let lv ← vget m.levels v
    if lv = c.inf ∨ lv = lvl then return (q2, m, { t with pc := .load (lv = c.inf) })
    else return (q2, m, t.next)
  | .load unk =>
    let x ← vget m.pc t.u
    return (q2, m, { t with pc := .add unk x })
  | .add unk x =>
    let y ← vget m.pc v
    let pc' ← vset m.pc v ((y + x) % c.M)
    return (q2, { m with pc := pc' }, { t with pc := .mark unk })
  | .mark unk =>
    let bits ← vget m.succ t.u
    let bits' ← vset bits t.pos true
    let succ' ← vset m.succ t.u bits'
    return (q2, { m with succ := succ' }, if unk then { t with pc := .cas } else t.next)
  | .cas =>
    let lv ← vget m.levels v
    if lv = c.inf then
      let levels' ← vset m.levels v lvl
      return (q2, { m with levels := levels' }, { t with pc := .push })
    else return (q2, m, t.next)
  | .push =>
    let b ← vget q2 (t.u % c.bins)
    let q2' ← vset q2 (t.u % c.bins) (b ++ [v])
    return (q2', m, t.next)

/-- What a backward task does next: go over the neighbours, store `deltas[u]`, add to `bc[u]`. -/
inductive BPc where
  | scan
  | store
  | add
  | done
  deriving DecidableEq

/-- The task of the retired vertex `u`: betweenness_centrality.hpp:301-310. -/
structure BTask where
  u : Nat
  row : List Nat
  pos : Nat
  delta : ℚ
  pc : BPc

/-- One step of a backward task: 306-311 (one neighbour), 313 (store; add). -/
def bTask (c : Args α) (m : Mem) (deltas : List ℚ) (t : BTask) : Res (List ℚ × BTask × Option AddEv) :=
  match t.pc with
  | .scan =>
    if t.pos < t.row.length then do
      let v ← vget t.row t.pos
      let bits ← vget m.succ t.u
      let b ← vget bits t.pos
      if b then
        let pu ← vget m.pc t.u
        let pv ← vget m.pc v
        let q ← quot c.dv pu pv
        let dl ← vget deltas v
        return (deltas, { t with pos := t.pos + 1, delta := t.delta + q * (1 + dl) }, none)
      else return (deltas, { t with pos := t.pos + 1 }, none)
    else return (deltas, { t with pc := .store }, none)
  | .store => do
    let deltas' ← vset deltas t.u t.delta
    return (deltas', { t with pc := .add }, none)
  | .add => return (deltas, { t with pc := .done }, some (t.u, t.delta))
  | .done => return (deltas, t, none)

/-- Where the thread of a source stands: not started, in a forward round, or going back through the retired queues (deepest first). -/
inductive Th where
  | start (root : Nat)
  | fwd (ts : List FTask) (q1 q2 : List (List Nat)) (retired : List (List (List Nat))) (m : Mem) (lvl : Nat)
  | back (todo : List (List (List Nat))) (ts : List BTask) (deltas : List ℚ) (m : Mem)

/-- The task created for a queued vertex: betweenness_centrality.hpp:257-258. -/
def mkF (c : Args α) (u : Nat) : Res FTask := do
  let r ← vget c.g u
  return { u := u, row := r.map Prod.fst, pos := 0, pc := .read }

/-- The task created for a retired vertex: betweenness_centrality.hpp:301-303. -/
def mkB (c : Args α) (u : Nat) : Res BTask := do
  let r ← vget c.g u
  return { u := u, row := r.map Prod.fst, pos := 0, delta := 0, pc := .scan }

/-- The initialisation: betweenness_centrality.hpp:237-254. -/
def init (c : Args α) (root : Nat) : Res Th := do
  let pc ← vset (List.replicate c.g.length 0) root 1
  let q1 ← vset (List.replicate c.bins []) 0 [root]
  let levels ← vset (List.replicate c.g.length c.inf) root 0
  let ts ← q1.flatten.mapM (mkF c)
  return .fwd ts q1 (List.replicate c.bins []) [] { levels := levels, pc := pc, succ := c.g.map fun r => List.replicate r.length false } 1

/-- The end of a forward round: betweenness_centrality.hpp:282-294, 297. -/
def fJoin (c : Args α) (q1 q2 : List (List Nat)) (retired : List (List (List Nat))) (m : Mem) (lvl : Nat) : Res Th :=
  if q2.all List.isEmpty then return .back (q1 :: retired) [] (List.replicate c.g.length 0) m
  else do
    let ts ← q2.flatten.mapM (mkF c)
    return .fwd ts q2 (List.replicate c.bins []) (q1 :: retired) m (lvl + 1)

/-- The end of the loop over a retired queue: betweenness_centrality.hpp:299. -/
def bJoin (c : Args α) (todo : List (List (List Nat))) (deltas : List ℚ) (m : Mem) : Res ((Th × Option AddEv) ⊕ Unit) :=
  match todo with
  | [] => return .inr ()
  | l :: todo => do
    let ts ← l.flatten.mapM (mkB c)
    return .inl (.back todo ts deltas m, none)

/-- The steps of the thread of a source: betweenness_centrality.hpp:236-313. -/
inductive TStep (c : Args α) : Th → Res ((Th × Option AddEv) ⊕ Unit) → Prop
  | start {root : Nat} : TStep c (.start root) ((init c root).map fun x => .inl (x, none))
  | fStep {ts : List FTask} {q1 q2 : List (List Nat)} {retired : List (List (List Nat))} {m : Mem} {lvl i : Nat} {t : FTask} (hi : ts[i]? = some t)
      (hf : ¬ t.finished) :
      TStep c (.fwd ts q1 q2 retired m lvl) ((fTask c lvl q2 m t).map fun x => .inl (.fwd (ts.set i x.2.2) q1 x.1 retired x.2.1 lvl, none))
  | fJoin {ts : List FTask} {q1 q2 : List (List Nat)} {retired : List (List (List Nat))} {m : Mem} {lvl : Nat} (hf : ∀ t ∈ ts, t.finished) :
      TStep c (.fwd ts q1 q2 retired m lvl) ((fJoin c q1 q2 retired m lvl).map fun x => .inl (x, none))
  | bStep {todo : List (List (List Nat))} {ts : List BTask} {deltas : List ℚ} {m : Mem} {i : Nat} {t : BTask} (hi : ts[i]? = some t) (hf : t.pc ≠ .done) :
      TStep c (.back todo ts deltas m) ((bTask c m deltas t).map fun x => .inl (.back todo (ts.set i x.2.1) x.1 m, x.2.2))
  | bJoin {todo : List (List (List Nat))} {ts : List BTask} {deltas : List ℚ} {m : Mem} (hf : ∀ t ∈ ts, t.pc = .done) :
      TStep c (.back todo ts deltas m) (bJoin c todo deltas m)

/-- The state in which the threads of all sources have been launched: betweenness_centrality.hpp:224-235.  `graph[0]` must exist. -/
def launch (c : Args α) (sources : List Nat) : Res (List (Option Th) × List ℚ) := do
  let _ ← vget c.g 0
  return (sources.map fun s => some (.start s), List.replicate c.g.length 0)

/-- The largest score, at least 0: betweenness_centrality.hpp:322. -/
def maxScore (bc : List ℚ) : ℚ := bc.foldl max 0

/-- What is returned: betweenness_centrality.hpp:321-325.  `none` is the result of dividing 0 by 0. -/
def finish (norm : Bool) (bc : List ℚ) : List (Option ℚ) :=
  if norm then bc.map fun x => if maxScore bc = 0 then none else some (x / maxScore bc) else bc.map some

/-- The sources of the exact variant: betweenness_centrality.hpp:351-355. -/
def allSources (c : Args α) : List Nat := List.range c.g.length

end NW.BrandesPar
