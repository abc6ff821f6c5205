import Verif.Concur
import Verif.Spec.Walk
import Verif.Model.BfsDirExp

/-!
# Model of experimental/algorithms/connected_components.hpp: label propagation, `lpcc` and `lpcc_cyclic`

Tasks take atomic steps (one access to shared memory each) in any order.  A task handles one vertex of a round; the code gives each thread whole blocks of
vertices, which allows fewer interleavings.  The thread that runs a task is chosen at each push; in the code it is fixed for a block.  Two threads never push
to the same list, so a push is one step.  Simplification: the plain reads of labels at 325, 329 and 45 (388, 391) are taken to be atomic.
-/

namespace NW.LpExp
open Spec

variable {α : Type}

/-- The two versions. -/
inductive Ver where
  | plain | cyclic

/-- Where a task stands in the body of the loop for `x`; `lx` is `labelx`. -/
inductive Pc where
  /-- before `labelx = labels[x]`: 325, 388 -/
  | start
  /-- before the test `labelx < labels[y]` for the next neighbour: 329, 391 -/
  | loop (lx : Nat)
  /-- in `writeMin`, before `prev = old`: 45 -/
  | rd (lx y : Nat)
  /-- in `writeMin`, before `prev > next && cas(...)`: 46 -/
  | cas (lx y prev : Nat)
  /-- before `bitmap.atomic_get(y)`: 331, 393 -/
  | get (lx y : Nat)
  /-- before `bitmap.atomic_set(y)`: 331, 393 -/
  | set (lx y : Nat)
  /-- before `frontier[worker_index].push_back(y)`: 332, 394 -/
  | push (lx y : Nat)

/-- A task: its vertex, where it stands, and the neighbours to come. -/
structure Task where
  x : Nat
  pc : Pc
  rest : List Nat

def Task.finished (t : Task) : Bool :=
  match t.pc, t.rest with
  | .loop _, [] => true
  | _, _ => false

/-- The shared memory: `comp`, `visited` and the lists `frontier`. -/
structure Mem where
  labels : List Nat
  bits : List Bool
  lists : List (List Nat)

/-- One atomic step of a task that runs on the thread `w`: 324-335 with 41-48; 387-397 with 41-48. -/
def taskStep (g : Rows α) (w : Nat) (m : Mem) (t : Task) : Res (Mem × Task) :=
  match t.pc with
  | .start => do
    let lx ← vget m.labels t.x
    let row ← vget g t.x
    return (m, ⟨t.x, .loop lx, row.map Prod.fst⟩)
  | .loop lx =>
    match t.rest with
    | [] => return (m, t)
    | y :: r => do
      let ly ← vget m.labels y
      if lx < ly then return (m, ⟨t.x, .rd lx y, r⟩)
      else return (m, ⟨t.x, .loop lx, r⟩)
  | .rd lx y => do
    let prev ← vget m.labels y
    return (m, ⟨t.x, .cas lx y prev, t.rest⟩)
  | .cas lx y prev =>
    if prev > lx then do
      let cur ← vget m.labels y
      if cur = prev then
        let labels' ← vset m.labels y lx
        return ({ m with labels := labels' }, ⟨t.x, .get lx y, t.rest⟩)
      else return (m, ⟨t.x, .rd lx y, t.rest⟩)
    else return (m, ⟨t.x, .loop lx, t.rest⟩)
  | .get lx y => do
    let b ← vget m.bits y
    if b = false then return (m, ⟨t.x, .set lx y, t.rest⟩)
    else return (m, ⟨t.x, .loop lx, t.rest⟩)
  | .set lx y => do
    let b ← vget m.bits y
    let bits' ← vset m.bits y true
    if b = false then return ({ m with bits := bits' }, ⟨t.x, .push lx y, t.rest⟩)
    else return ({ m with bits := bits' }, ⟨t.x, .loop lx, t.rest⟩)
  | .push lx y => do
    let l ← vget m.lists w
    let lists' ← vset m.lists w (l ++ [y])
    return ({ m with lists := lists' }, ⟨t.x, .loop lx, t.rest⟩)

inductive State where
  /-- at the test of the `while` loop: 357, 419 -/
  | head (m : Mem) (cur : List Nat)
  /-- in `propagate`: 320-338, 383-400 -/
  | run (m : Mem) (ts : List Task)

/-- The vertices of a round: those of `cur`, 321-324; in `lpcc_cyclic` all, 384-387. -/
def items (ver : Ver) (N : Nat) (cur : List Nat) : List Nat :=
  match ver with
  | .plain => cur
  | .cyclic => List.range N

/-- After `propagate`: `curtonext(next)`, `visited.clear()`, and `cur` becomes `next`: 340-355 and 359-362; 402-418 and 421-424.  `ord` is the order in which
the lists are copied; the code of `curtonext` is that of `flush` in experimental/algorithms/bfs.hpp. -/
def endRound (ord : List Nat) (m : Mem) : Res State := do
  let (lists', next) ← BfsDirExp.flush ord m.lists []
  return .head ⟨m.labels, m.bits.map fun _ => false, lists'⟩ next

/-- The steps. -/
inductive Step (ver : Ver) (g : Rows α) (threads : Nat) : State → Res (State ⊕ List Nat) → Prop
  | stop {m : Mem} : Step ver g threads (.head m []) (.ok (.inr m.labels))
  | go {m : Mem} {cur : List Nat} (h : cur ≠ []) :
      Step ver g threads (.head m cur) (.ok (.inl (.run m ((items ver g.length cur).map fun x => ⟨x, .start, []⟩))))
  | task {m : Mem} {ts : List Task} {i w : Nat} {t : Task} (hi : ts[i]? = some t) (hf : t.finished = false) (hw : w < threads) :
      Step ver g threads (.run m ts) ((taskStep g w m t).map fun x => .inl (.run x.1 (ts.set i x.2)))
  | join {m : Mem} {ts : List Task} {ord : List Nat} (hf : ∀ t ∈ ts, t.finished = true) (ho : ord.Perm (List.range m.lists.length)) :
      Step ver g threads (.run m ts) ((endRound ord m).map .inl)

/-- The start: 309-319, 372-382. -/
def start (g : Rows α) (bins : Nat) : State :=
  .head ⟨List.range g.length, List.replicate g.length false, List.replicate bins []⟩ (List.range g.length)

end NW.LpExp
