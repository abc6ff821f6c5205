import Verif.Serial
import Verif.Model.Brandes
import Verif.Model.BcExpPar

/-!
# Model of `bc2_v2`: experimental/algorithms/betweenness_centrality.hpp:1365-1438

The sources are handled one after another.  In a forward round every edge that leaves a vertex of `S[phase]` is a task of its own (the loop over the vertices is parallel, and so is the loop over the
edges of a vertex); the tasks take steps in any order.  `path_counts` is a plain vector: `path_counts[w] += path_counts[v]` is two loads and a store.  (Two tasks that do this to the same entry at the same
time are a data race, which is undefined behaviour in C++; the model shows the mildest outcome, a lost update.)  Simplifications: scores are exact rationals; `path_counts` holds naturals modulo `M`;
a `concurrent_vector` is a list; in `delta[v] += x` on an atomic, the operands of `x` do not change during the round, so that computing and adding is one step; `bc[w] += delta[w]` is one step since the tasks of a
round belong to different vertices `w`; division by a path count of zero is a fault.
-/

namespace NW.BcRace
open Spec

variable {α : Type}

/-- The graph, the largest vertex id, and the modulus of the counting type. -/
structure Args (α : Type) where
  g : Rows α
  inf : Nat
  M : Nat

/-- The arrays of a source: 1375-1391. -/
structure Mem where
  depths : List Nat
  pc : List Nat
  P : List (List Nat)
  S : List (List Nat)
  count : Nat
  deriving DecidableEq

/-- What the task of the edge from `v` to `w` does next: test whether `depths[w]` is unset, try to claim `w`, put `w` in `S[phase + 1]`, increment `count`, test whether `w` is on the next level,
read `path_counts[v]`, read `path_counts[w]`, store the sum, put `v` in `P[w]`. -/
inductive EPc where
  | read
  | cas
  | push
  | bump
  | check
  | load
  | load2 (x : Nat)
  | store (y : Nat)
  | link
  | done
  deriving DecidableEq

structure ETask where
  v : Nat
  w : Nat
  pc : EPc
  deriving DecidableEq

/-- One step of the task of an edge: 1399-1409. -/
def eTask (c : Args α) (phase depth : Nat) (m : Mem) (t : ETask) : Res (Mem × ETask) :=
  match t.pc with
  | .read => do
    let d ← vget m.depths t.w
    return (m, { t with pc := if d = c.inf then .cas else .check })
  | .cas => do
    let d ← vget m.depths t.w
    if d = c.inf then
      let depths' ← vset m.depths t.w depth
      return ({ m with depths := depths' }, { t with pc := .push })
    else return (m, { t with pc := .check })
  | .push => do
    let q ← vget m.S (phase + 1)
    let S' ← vset m.S (phase + 1) (q ++ [t.w])
    return ({ m with S := S' }, { t with pc := .bump })
  | .bump => return ({ m with count := m.count + 1 }, { t with pc := .check })
  | .check => do
    let d ← vget m.depths t.w
    return (m, { t with pc := if d = depth then .load else .done })
  | .load => do
    let x ← vget m.pc t.v
    return (m, { t with pc := .load2 x })
  | .load2 x => do
    let y ← vget m.pc t.w
    return (m, { t with pc := .store ((y + x) % c.M) })
  | .store y => do
    let pc' ← vset m.pc t.w y
    return ({ m with pc := pc' }, { t with pc := .link })
  | .link => do
    let l ← vget m.P t.w
    let P' ← vset m.P t.w (l ++ [t.v])
    return ({ m with P := P' }, { t with pc := .done })
  | .done => return (m, t)

/-- The task of a vertex `w` of `S[phase]` on the way back; `row` is `P[w]`: 1424-1430. -/
structure BTask where
  w : Nat
  row : List Nat
  pos : Nat
  done : Bool
  deriving DecidableEq

/-- One step of the task of `w`: 1425-1427 (one predecessor), 1429. -/
def bTask (m : Mem) (deltas : List ℚ) (t : BTask) : Res (List ℚ × BTask × Option AddEv) :=
  if t.pos < t.row.length then do
    let v ← vget t.row t.pos
    let a ← vget m.pc v
    let b ← vget m.pc t.w
    let q ← BrandesPar.quot .exact a b
    let dw ← vget deltas t.w
    let dv ← vget deltas v
    let deltas' ← vset deltas v (dv + q * (1 + dw))
    return (deltas', { t with pos := t.pos + 1 }, none)
  else do
    let dw ← vget deltas t.w
    return (deltas, { t with done := true }, some (t.w, dw))

/-- Where the run of a source stands: not started, in a forward round, on the way back. -/
inductive Th where
  | start (root : Nat)
  | fwd (ts : List ETask) (m : Mem) (phase depth : Nat)
  | back (ts : List BTask) (deltas : List ℚ) (m : Mem) (phase : Nat)
  deriving DecidableEq

/-- The tasks of the edges that leave `v`: 1397-1399. -/
def mkE (c : Args α) (v : Nat) : Res (List ETask) := do
  let r ← vget c.g v
  return r.map fun e => { v := v, w := e.1, pc := .read }

/-- The start of a forward round: 1394-1399. -/
def enter (c : Args α) (m : Mem) (phase depth : Nat) : Res Th := do
  let q ← vget m.S phase
  let ts ← q.mapM (mkE c)
  return .fwd ts.flatten { m with count := 0 } phase depth

/-- The initialisation: 1375-1391. -/
def init (c : Args α) (root : Nat) : Res Th := do
  let pc ← vset (List.replicate c.g.length 0) root 1
  let depths ← vset (List.replicate c.g.length c.inf) root 0
  enter c { depths := depths, pc := pc, P := List.replicate c.g.length [], S := [[root], []], count := 1 } 0 1

/-- `while (--phase > 0)`: 1423-1424. -/
def retreat (deltas : List ℚ) (m : Mem) (phase : Nat) : Res ((Th × Option AddEv) ⊕ Unit) :=
  if 0 < phase - 1 then do
    let q ← vget m.S (phase - 1)
    let ts ← q.mapM fun w => do
      let row ← vget m.P w
      return { w := w, row := row, pos := 0, done := false }
    return .inl (.back ts deltas m (phase - 1), none)
  else return .inr ()

/-- The end of a forward round, and the test of `while (count > 0)`: 1414-1417, 1393, 1421. -/
def fJoin (c : Args α) (m : Mem) (phase depth : Nat) : Res ((Th × Option AddEv) ⊕ Unit) :=
  if 0 < m.count then (enter c { m with S := m.S ++ [[]] } (phase + 1) (depth + 1)).map fun x => .inl (x, none)
  else retreat (List.replicate c.g.length 0) { m with S := m.S ++ [[]] } (phase + 1)

/-- The steps of the run of a source: 1374-1432. -/
inductive VStep (c : Args α) : Th → Res ((Th × Option AddEv) ⊕ Unit) → Prop
  | start {root : Nat} : VStep c (.start root) ((init c root).map fun x => .inl (x, none))
  | fStep {ts : List ETask} {m : Mem} {phase depth i : Nat} {t : ETask} (hi : ts[i]? = some t) (hf : t.pc ≠ .done) :
      VStep c (.fwd ts m phase depth) ((eTask c phase depth m t).map fun x => .inl (.fwd (ts.set i x.2) x.1 phase depth, none))
  | fJoin {ts : List ETask} {m : Mem} {phase depth : Nat} (hf : ∀ t ∈ ts, t.pc = .done) : VStep c (.fwd ts m phase depth) (fJoin c m phase depth)
  | bStep {ts : List BTask} {deltas : List ℚ} {m : Mem} {phase i : Nat} {t : BTask} (hi : ts[i]? = some t) (hf : t.done = false) :
      VStep c (.back ts deltas m phase) ((bTask m deltas t).map fun x => .inl (.back (ts.set i x.2.1) x.1 m phase, x.2.2))
  | bJoin {ts : List BTask} {deltas : List ℚ} {m : Mem} {phase : Nat} (hf : ∀ t ∈ ts, t.done = true) : VStep c (.back ts deltas m phase) (retreat deltas m phase)

/-- The state before the loop over the sources: 1370-1374. -/
def launch (c : Args α) (sources : List Nat) : List Th × List ℚ := (sources.map Th.start, List.replicate c.g.length 0)

/-- What is returned: 1433-1437. -/
def finish (norm : Bool) (bc : List ℚ) : Res (List (Option ℚ)) := BcExpPar.finish norm bc

end NW.BcRace
