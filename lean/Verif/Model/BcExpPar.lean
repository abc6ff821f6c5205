import Verif.Model.BrandesPar
import Verif.Serial
import Verif.Model.Brandes

/-!
# Model of `bc2_v3` and `bc2_v4`: experimental/algorithms/betweenness_centrality.hpp:1440-1633

The sources are handled one after another; the parallel loops of a source run as tasks that take atomic steps in any order.  The arguments, the arrays of a source and the backward
tasks are those of `Model/BrandesPar`, whose simplifications apply: scores are exact rationals, `path_counts` holds naturals modulo `M`, the compare-and-swap loop (v3) or the
`fetch_add` (v4) that raises a path count is one step, `succ` is a list of bits for every row, a `concurrent_vector` is a list, division by a path count of zero is a fault.
`bc[u] += delta` is one step: the tasks that run at the same time belong to different vertices `u` (`Layer`), so no other task touches `bc[u]` in between.
`bc2_v3` divides in `double` (`Division.exact`) and has 32 bins; `bc2_v4` divides in the counting type and computes the number of bins from `threads`.
-/

namespace NW.BcExpPar
open Spec
open NW.BrandesPar (Args Mem BTask mkB bTask)

variable {α : Type}

/-- What a forward task does next with the neighbour `v` at its position: test whether `levels[v]` is unset, try to claim `v`, enqueue `v`, test whether `v` is on the next level,
read `path_counts[u]`, add to `path_counts[v]`, set the bit of the edge. -/
inductive XPc where
  | read
  | cas
  | push
  | check
  | load
  | add (x : Nat)
  | mark

/-- The task of the queued vertex `u`: 1480-1493 (v3), 1577-1587 (v4). -/
structure XTask where
  u : Nat
  row : List Nat
  pos : Nat
  pc : XPc

def XTask.finished (t : XTask) : Prop := t.row.length ≤ t.pos

/-- On to the next neighbour. -/
def XTask.next (t : XTask) : XTask := { t with pos := t.pos + 1, pc := .read }

/-- One atomic step of a forward task.  v3: 1484 (read; compare and swap), 1485 (push), 1487 (check), 1489-1490 (load; add), 1492 (mark); v4: 1580, 1581, 1583, 1584, 1585. -/
def xTask (c : Args α) (lvl : Nat) (q2 : List (List Nat)) (m : Mem) (t : XTask) : Res (List (List Nat) × Mem × XTask) := do
  let v ← vget t.row t.pos
  match t.pc with
  | .read =>
    let lv ← vget m.levels v
    return (q2, m, { t with pc := if lv = c.inf then .cas else .check })
  | .cas =>
    let lv ← vget m.levels v
    if lv = c.inf then
      let levels' ← vset m.levels v lvl
      return (q2, { m with levels := levels' }, { t with pc := .push })
    else return (q2, m, { t with pc := .check })
  | .push =>
    let b ← vget q2 (t.u % c.bins)
    let q2' ← vset q2 (t.u % c.bins) (b ++ [v])
    return (q2', m, { t with pc := .check })
  | .check =>
    let lv ← vget m.levels v
    if lv = lvl then return (q2, m, { t with pc := .load })
    else return (q2, m, t.next)
  | .load =>
    let x ← vget m.pc t.u
    return (q2, m, { t with pc := .add x })
  | .add x =>
    let y ← vget m.pc v
    let pc' ← vset m.pc v ((y + x) % c.M)
    return (q2, { m with pc := pc' }, { t with pc := .mark })
  | .mark =>
    let bits ← vget m.succ t.u
    let bits' ← vset bits t.pos true
    let succ' ← vset m.succ t.u bits'
    return (q2, { m with succ := succ' }, t.next)

/-- Where the run of a source stands: not started, in a forward round, or going back through the retired queues (deepest first). -/
inductive Th where
  | start (root : Nat)
  | fwd (ts : List XTask) (q1 q2 : List (List Nat)) (retired : List (List (List Nat))) (m : Mem) (lvl : Nat)
  | back (todo : List (List (List Nat))) (ts : List BTask) (deltas : List ℚ) (m : Mem)

/-- The task created for a queued vertex: 1477-1480, 1575-1577. -/
def mkX (c : Args α) (u : Nat) : Res XTask := do
  let r ← vget c.g u
  return { u := u, row := r.map Prod.fst, pos := 0, pc := .read }

/-- The initialisation: 1459-1475, 1557-1573. -/
def init (c : Args α) (root : Nat) : Res Th := do
  let pc ← vset (List.replicate c.g.length 0) root 1
  let q1 ← vset (List.replicate c.bins []) 0 [root]
  let levels ← vset (List.replicate c.g.length c.inf) root 0
  let ts ← q1.flatten.mapM (mkX c)
  return .fwd ts q1 (List.replicate c.bins []) [] { levels := levels, pc := pc, succ := c.g.map fun r => List.replicate r.length false } 1

/-- The end of a forward round: 1499-1512, 1591-1604. -/
def fJoin (c : Args α) (q1 q2 : List (List Nat)) (retired : List (List (List Nat))) (m : Mem) (lvl : Nat) : Res Th :=
  if q2.all List.isEmpty then return .back (q1 :: retired) [] (List.replicate c.g.length 0) m
  else do
    let ts ← q2.flatten.mapM (mkX c)
    return .fwd ts q2 (List.replicate c.bins []) (q1 :: retired) m (lvl + 1)

/-- The end of the loop over a retired queue: 1516-1533, 1608-1625. -/
def bJoin (c : Args α) (todo : List (List (List Nat))) (deltas : List ℚ) (m : Mem) : Res ((Th × Option AddEv) ⊕ Unit) :=
  match todo with
  | [] => return .inr ()
  | l :: todo => do
    let ts ← l.flatten.mapM (mkB c)
    return .inl (.back todo ts deltas m, none)

/-- The steps of the run of a source: 1456-1534, 1556-1626. -/
inductive XStep (c : Args α) : Th → Res ((Th × Option AddEv) ⊕ Unit) → Prop
  | start {root : Nat} : XStep c (.start root) ((init c root).map fun x => .inl (x, none))
  | fStep {ts : List XTask} {q1 q2 : List (List Nat)} {retired : List (List (List Nat))} {m : Mem} {lvl i : Nat} {t : XTask} (hi : ts[i]? = some t)
      (hf : ¬ t.finished) :
      XStep c (.fwd ts q1 q2 retired m lvl) ((xTask c lvl q2 m t).map fun x => .inl (.fwd (ts.set i x.2.2) q1 x.1 retired x.2.1 lvl, none))
  | fJoin {ts : List XTask} {q1 q2 : List (List Nat)} {retired : List (List (List Nat))} {m : Mem} {lvl : Nat} (hf : ∀ t ∈ ts, t.finished) :
      XStep c (.fwd ts q1 q2 retired m lvl) ((fJoin c q1 q2 retired m lvl).map fun x => .inl (x, none))
  | bStep {todo : List (List (List Nat))} {ts : List BTask} {deltas : List ℚ} {m : Mem} {i : Nat} {t : BTask} (hi : ts[i]? = some t) (hf : t.pc ≠ .done) :
      XStep c (.back todo ts deltas m) ((bTask c m deltas t).map fun x => .inl (.back todo (ts.set i x.2.1) x.1 m, x.2.2))
  | bJoin {todo : List (List (List Nat))} {ts : List BTask} {deltas : List ℚ} {m : Mem} (hf : ∀ t ∈ ts, t.pc = .done) :
      XStep c (.back todo ts deltas m) (bJoin c todo deltas m)

/-- The state before the loop over the sources: 1448-1456, 1547-1556.  `*graph.begin()` must exist. -/
def launch (c : Args α) (sources : List Nat) : Res (List Th × List ℚ) := do
  let _ ← vget c.g 0
  return (sources.map Th.start, List.replicate c.g.length 0)

/-- What is returned: 1535-1539, 1627-1631. -/
def finish (norm : Bool) (bc : List ℚ) : Res (List (Option ℚ)) :=
  if norm then Brandes.normalise bc else return bc.map some

end NW.BcExpPar
