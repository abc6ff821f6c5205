import Verif.Concur
import Verif.Model.Bfs
import Verif.Model.Dobfs

/-!
# Model of the level-by-level searches of experimental/algorithms/bfs.hpp: `bfs_v6` … `bfs_v9`, `bfs_top_down`, `bfs_top_down_bitmap`, `bfs_bottom_up`

In the parallel versions every edge out of the current frontier is a task that takes atomic steps; the tasks are interleaved in any order.
This allows more schedules than the library does: versions 7 and `for_each` inside one sub-range go through some edges one after the other.
Simplifications: plain accesses to `level` and `parents` are taken to be atomic and sequentially consistent (in versions 8 and 9 and
`bfs_top_down` they race); `push_back` on a concurrent container is one step; the bit vectors are lists of bits (their words are C47).
`inf` is the maximum of the vertex type.

Not modelled: `bfs_v4` (37-68), which does not compile (`q1(q2)` calls a queue).
-/

namespace NW.BfsExp
open Spec

variable {α : Type}

/-- `bfs_v6(graph, root)` ends with `o`: experimental/algorithms/bfs.hpp:71-99.  The text is that of `bfs`, algorithms/bfs.hpp:110-140, but for the type of the
queues. -/
def RunV6 (inf : Nat) (g : Rows α) (root : Nat) (o : Res (List Nat)) : Prop := Bfs.Run inf g root o

/-- The parallel versions. -/
inductive Ver where
  | v7 | v8 | v9 | topDown | bitmap
  deriving DecidableEq

/-- What is left to do for a neighbour found unvisited: enqueue it, write its level, write its parent. -/
inductive Act where
  | push | mark | par
  deriving DecidableEq

/-- Where a task stands: before the test; about to claim the vertex; with some writes left; it has found the vertex visited. -/
inductive Pc where
  | start
  | claim (old : Nat)
  | todo (as : List Act)
  | skip
  deriving DecidableEq

/-- The task of the edge from `u` to `v`. -/
structure Task where
  u : Nat
  v : Nat
  pc : Pc
  deriving DecidableEq

def Task.finished (t : Task) : Prop := t.pc = .skip ∨ t.pc = .todo []

instance (t : Task) : Decidable t.finished := inferInstanceAs (Decidable (_ ∨ _))

/-- What the tasks share: the bins of the next frontier, `level` (or `visited`, in `bfs_top_down_bitmap`; not used in `bfs_top_down`), and `parents`. -/
structure Arrays where
  q2 : List (List Nat)
  mark : List Nat
  par : List Nat

/-- The test of an edge: the read of `level[v]`, bfs.hpp:121-123 and 167 and 206, of `parents[v]`, 257, of the bit of `v`, 306. -/
def test (ver : Ver) (inf lvl : Nat) (a : Arrays) (v : Nat) : Res Pc :=
  match ver with
  | .v7 => do
    let old ← vget a.mark v
    return if lvl % (inf + 1) < old then .claim old else .skip
  | .v8 | .v9 => do
    let x ← vget a.mark v
    return if x = inf then .todo [.push, .mark, .par] else .skip
  | .topDown => do
    let x ← vget a.par v
    return if x = inf then .todo [.par, .push] else .skip
  | .bitmap => do
    let x ← vget a.mark v
    return if x = 0 then .claim x else .skip

/-- The claim: one `compare_exchange_strong` and the tests after it, bfs.hpp:125-131; `atomic_set`, 306.  The other versions have none. -/
def claim (ver : Ver) (inf lvl : Nat) (a : Arrays) (v old : Nat) : Res (Arrays × Pc) :=
  match ver with
  | .v7 => do
    let x ← vget a.mark v
    if x = old then
      let mark ← vset a.mark v (lvl % (inf + 1))
      return ({ a with mark := mark }, .todo [.push, .par])
    else return (a, if x ≤ lvl % (inf + 1) then .skip else .claim x)
  | .bitmap => do
    let x ← vget a.mark v
    let mark ← vset a.mark v 1
    return ({ a with mark := mark }, if x = 0 then .todo [.par, .push] else .skip)
  | _ => return (a, .skip)

/-- The number of bins: one queue, bfs.hpp:105 and 151, or `num_bins`, 187, 239, 286. -/
def Ver.bins : Ver → Nat
  | .v7 | .v8 => 1
  | .v9 | .topDown | .bitmap => 32

/-- The bin a neighbour of `u` is pushed to: bfs.hpp:132, 168; `u & bin_mask`, 207; `u % num_bins`, 259, 308. -/
def Ver.bin (ver : Ver) (u : Nat) : Nat :=
  match ver with
  | .v7 | .v8 => 0
  | .v9 => u &&& 0x1F
  | .topDown | .bitmap => u % 32

/-- One of the writes: bfs.hpp:132-133, 168-170, 207-209, 258-259, 307-308. -/
def act (ver : Ver) (inf lvl : Nat) (a : Arrays) (u v : Nat) : Act → Res Arrays
  | .push => do
    let b ← vget a.q2 (ver.bin u)
    let q2 ← vset a.q2 (ver.bin u) (b ++ [v])
    return { a with q2 := q2 }
  | .mark => do
    let mark ← vset a.mark v (lvl % (inf + 1))
    return { a with mark := mark }
  | .par => do
    let par ← vset a.par v u
    return { a with par := par }

/-- One atomic step of a task. -/
def taskStep (ver : Ver) (inf lvl : Nat) (a : Arrays) (t : Task) : Res (Arrays × Task) :=
  match t.pc with
  | .start => do
    let pc ← test ver inf lvl a t.v
    return (a, { t with pc := pc })
  | .claim old => do
    let (a', pc) ← claim ver inf lvl a t.v old
    return (a', { t with pc := pc })
  | .todo [] => return (a, t)
  | .todo (x :: xs) => do
    let a' ← act ver inf lvl a t.u t.v x
    return (a', { t with pc := .todo xs })
  | .skip => return (a, t)

/-- The head of the loop, with the frontier `q1`; or in a round. -/
inductive State where
  | head (q1 : List (List Nat)) (mark par : List Nat) (lvl : Nat)
  | round (ts : List Task) (a : Arrays) (lvl : Nat)

/-- The tasks of the queued vertex `u`: bfs.hpp:118-119, 164-165, 202-204, 255-256, 304-305. -/
def mkTasks (g : Rows α) (u : Nat) : Res (List Task) := do
  let r ← vget g u
  return r.map fun x => { u := u, v := x.1, pc := .start }

/-- `while (!q1.empty())`, bfs.hpp:117 and 162 (versions 7 and 8; the others test at the end of the round), and the start of the round. -/
def headStep (ver : Ver) (g : Rows α) (q1 : List (List Nat)) (mark par : List Nat) (lvl : Nat) : Res (State ⊕ List Nat) :=
  if (ver = .v7 ∨ ver = .v8) ∧ q1.all List.isEmpty then return .inr par
  else do
    let ts ← q1.flatten.mapM (mkTasks g)
    return .inl (.round ts.flatten { q2 := List.replicate ver.bins [], mark := mark, par := par } lvl)

/-- The end of a round: bfs.hpp:138-141, 174-178, 216-230, 265-277, 314-326. -/
def joinStep (ver : Ver) (a : Arrays) (lvl : Nat) : Res (State ⊕ List Nat) :=
  if (ver = .v9 ∨ ver = .topDown ∨ ver = .bitmap) ∧ a.q2.all List.isEmpty then return .inr a.par
  else return .inl (.head a.q2 a.mark a.par (lvl + 1))

/-- The steps of the algorithms. -/
inductive Step (ver : Ver) (inf : Nat) (g : Rows α) : State → Res (State ⊕ List Nat) → Prop
  | head {q1 mark par lvl} : Step ver inf g (.head q1 mark par lvl) (headStep ver g q1 mark par lvl)
  | task {ts a lvl} {i : Nat} {t : Task} (hi : ts[i]? = some t) (hf : ¬ t.finished) :
      Step ver inf g (.round ts a lvl) ((taskStep ver inf lvl a t).map fun x => .inl (.round (ts.set i x.2) x.1 lvl))
  | join {ts a lvl} (hf : ∀ t ∈ ts, t.finished) : Step ver inf g (.round ts a lvl) (joinStep ver a lvl)

/-- The marks at the start: levels, bfs.hpp:106-114, 152-159, 190-196; none, 243; bits, 291-299. -/
def initMark (ver : Ver) (inf n root : Nat) : Res (List Nat) :=
  match ver with
  | .v7 | .v8 | .v9 => vset (List.replicate n inf) root 0
  | .topDown => return []
  | .bitmap => vset (List.replicate n 0) root 1

/-- The start: bfs.hpp:105-115, 151-160, 187-197, 239-250, 286-299. -/
def init (ver : Ver) (inf : Nat) (g : Rows α) (root : Nat) : Res State := do
  let mark ← initMark ver inf g.length root
  let par ← vset (List.replicate g.length inf) root root
  let q1 ← vset (List.replicate ver.bins []) 0 [root]
  return .head q1 mark par 1

/-! ## bfs_bottom_up -/

/-- The head of the `for` loop, with the count `n`; or in a round. -/
inductive BuState where
  | head (n : Nat) (par : List Nat) (frontier next : List Bool)
  | round (ts : List Dobfs.BuTask) (par : List Nat) (frontier next : List Bool)

/-- The arguments of a bottom-up task: it reads the in-neighbours and the null vertex only. -/
def buArgs (inf : Nat) (g gx : Rows α) : Dobfs.Args α := { out := g, inn := gx, bins := 1, M := 0, alpha := 1, beta := 1, inf := inf }

/-- The steps of `bfs_bottom_up`: bfs.hpp:346-367.  The work on one vertex, 350-360, is that of the direction-optimizing search (`Dobfs.buTask`).
The counts are added as `int`s by the library; they are not bounded here. -/
inductive BuStep (inf : Nat) (g gx : Rows α) : BuState → Res (BuState ⊕ List Nat) → Prop
  | head {n par frontier next} : BuStep inf g gx (.head n par frontier next)
      (if n ≠ 0 then .ok (.inl (.round (List.replicate gx.length .start) par next (List.replicate gx.length false))) else .ok (.inr par))
  | task {ts par frontier next} {i : Nat} {t : Dobfs.BuTask} (hi : ts[i]? = some t) (hf : t.isDone = false) :
      BuStep inf g gx (.round ts par frontier next)
        ((Dobfs.buTask (buArgs inf g gx) par frontier next i t).map fun x => .inl (.round (ts.set i x.2.2) x.1 frontier x.2.1))
  | join {ts par frontier next} (hf : ∀ t ∈ ts, t.isDone = true) :
      BuStep inf g gx (.round ts par frontier next) (.ok (.inl (.head (ts.count (.done true)) par frontier next)))

/-- The start: bfs.hpp:335-346. -/
def buInit (inf : Nat) (gx : Rows α) (root : Nat) : Res BuState := do
  let par ← vset (List.replicate gx.length inf) root root
  let next ← vset (List.replicate gx.length false) root true
  return .head 1 par (List.replicate gx.length false) next

end NW.BfsExp
