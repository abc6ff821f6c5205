import Verif.Model.DeltaPar

/-!
# Model of the experimental delta stepping: experimental/algorithms/delta_stepping.hpp

The five versions share the outer loop of the parallel `delta_stepping` and differ in two ways: in `relax` (`v6`, `v8`, and one text for `v9`, `v10`, `v11`,
which is that of algorithms/delta_stepping.hpp) and in how the work of a round is shared out:

* a block is a stretch of the frontier that one thread handles in order: single vertices in `v6` (73-77), `v8` (130-139) and `v9` (190-199),
  the stretches of a `tbb::blocked_range` in `v10` (249-261) and `v11` (311-325), cut wherever the library likes;
* the edges of a vertex are relaxed one after the other in `v6`, `v9`, `v10`, and in parallel in `v8`, `v11`; then the next vertex of the block waits for all of them.

Simplifications: those of `Model/DeltaPar`; the edges of `v11` are single tasks (the code relaxes stretches of them in order, which allows fewer interleavings);
the unsynchronised accesses of `v6` to `tdist` and its `bins.resize` are single steps.
-/

namespace NW.DeltaExp
open NW.Sssp Spec

variable {α : Type}

/-- One step of a task: the new distances, bins, the task afterwards, and the tasks it creates. -/
abbrev Task (α : Type) := Nat → List Nat → List (List Nat) → PTask α → Res (List Nat × List (List Nat) × PTask α × List (PTask α))

/-- `relax` of `v8` and the test of a vertex: experimental/algorithms/delta_stepping.hpp:102-120, 131.  `changed_dist` is initialised: the loop is left without
a change as soon as the distance found is not larger. -/
def task8 (g : Rows α) (wt : Nat × α → Nat) (dmax delta : Nat) : Task α := fun top dist bins t =>
  match t with
  | .vertex u => do
    let du ← vget dist u
    if du ≥ delta * top then
      let r ← vget g u
      return (dist, bins, .done, r.map (.start u))
    else return (dist, bins, .done, [])
  | .start u e => do
    let du ← vget dist u
    return (dist, bins, .haveNext e.1 ((du + wt e) % (dmax + 1)), [])
  | .haveNext v next => do
    let old ← vget dist v
    return (dist, bins, .havePrev v next old false, [])
  | .havePrev v next old _ =>
    if next < old then do
      let cur ← vget dist v
      if cur = old then
        let dist' ← vset dist v next
        return (dist', bins, .push v next, [])
      else return (dist, bins, .havePrev v next cur true, [])
    else return (dist, bins, .done, [])
  | .push v next => do
    let bins' ← pushBin delta v next bins
    return (dist, bins', .done, [])
  | .done => return (dist, bins, .done, [])

/-- `relax` of `v6`: experimental/algorithms/delta_stepping.hpp:56-66, 74: the distance of the head is read, compared, and overwritten in separate steps. -/
def task6 (g : Rows α) (wt : Nat × α → Nat) (dmax delta : Nat) : Task α := fun top dist bins t =>
  match t with
  | .vertex u => do
    let du ← vget dist u
    if du ≥ delta * top then
      let r ← vget g u
      return (dist, bins, .done, r.map (.start u))
    else return (dist, bins, .done, [])
  | .start u e => do
    let du ← vget dist u
    return (dist, bins, .haveNext e.1 ((du + wt e) % (dmax + 1)), [])
  | .haveNext v next => do
    let old ← vget dist v
    return (dist, bins, .havePrev v next old false, [])
  | .havePrev v next old _ =>
    if next < old then do
      let dist' ← vset dist v next
      return (dist', bins, .push v next, [])
    else return (dist, bins, .done, [])
  | .push v next => do
    let bins' ← pushBin delta v next bins
    return (dist, bins', .done, [])
  | .done => return (dist, bins, .done, [])

/-- `relax` of `v9` (163-183), `v10` (222-242), `v11` (284-304): the text of algorithms/delta_stepping.hpp:186-206, with the uninitialised `success`. -/
def task9 (g : Rows α) (wt : Nat × α → Nat) (dmax delta : Nat) (flag : Option Bool) : Task α := pTask g wt dmax delta flag

/-- A thread's share of a round: the tasks that may run now, and those that wait until all of these are done. -/
structure Block (α : Type) where
  now : List (PTask α)
  later : List (PTask α)

/-- How a version shares out the work: whether a block is a single vertex, and whether the edges of a vertex are relaxed in parallel. -/
structure Shape where
  single : Bool
  nested : Bool

def shape6 : Shape := ⟨true, false⟩
def shape8 : Shape := ⟨true, true⟩
def shape9 : Shape := ⟨true, false⟩
def shape10 : Shape := ⟨false, false⟩
def shape11 : Shape := ⟨false, true⟩

/-- At the head of the outer loop, or inside a round. -/
inductive BState (α : Type) where
  | head (dist : List Nat) (bins : List (List Nat)) (top : Nat)
  | round (dist : List Nat) (bins : List (List Nat)) (top : Nat) (bs : List (Block α))

/-- A block whose next waiting task takes its first step and becomes `t`, having created `new`: the loops over a block and over the edges of a vertex,
experimental/algorithms/delta_stepping.hpp:73-77, 130-139, 190-199, 249-261, 311-325. -/
def Block.advance (sh : Shape) (t : PTask α) (new rest : List (PTask α)) : Block α :=
  if sh.nested then ⟨t :: new, rest⟩ else ⟨[t], new ++ rest⟩

/-- The steps of the outer loop: experimental/algorithms/delta_stepping.hpp:70-82, 125-144, 187-204, 246-266, 308-330. -/
inductive BStep (sh : Shape) (task : Task α) : BState α → Res (BState α ⊕ List Nat) → Prop
  | stop {dist bins top} (h : bins.length ≤ top) : BStep sh task (.head dist bins top) (.ok (.inr dist))
  | take {dist bins top frontier} (h : bins[top]? = some frontier) (cuts : List (List Nat)) (hc : cuts.flatten = frontier)
      (hs : sh.single = true → ∀ c ∈ cuts, c.length = 1) :
      BStep sh task (.head dist bins top) (.ok (.inl (.round dist (bins.set top []) top (cuts.map fun c => ⟨[], c.map .vertex⟩))))
  | inner {dist bins top} {bs : List (Block α)} {k i : Nat} {b : Block α} {t : PTask α} (hk : bs[k]? = some b) (hi : b.now[i]? = some t)
      (hf : t.isDone = false) :
      BStep sh task (.round dist bins top bs)
        ((task top dist bins t).map fun x => .inl (.round x.1 x.2.1 top (bs.set k ⟨b.now.set i x.2.2.1 ++ x.2.2.2, b.later⟩)))
  | next {dist bins top} {bs : List (Block α)} {k : Nat} {b : Block α} {t : PTask α} {rest : List (PTask α)} (hk : bs[k]? = some b)
      (hn : ∀ t ∈ b.now, t.isDone = true) (hl : b.later = t :: rest) :
      BStep sh task (.round dist bins top bs)
        ((task top dist bins t).map fun x => .inl (.round x.1 x.2.1 top (bs.set k (Block.advance sh x.2.2.1 x.2.2.2 rest))))
  | join {dist bins top} {bs : List (Block α)} (hn : ∀ b ∈ bs, (∀ t ∈ b.now, t.isDone = true) ∧ b.later = []) :
      BStep sh task (.round dist bins top bs) (.ok (.inl (.head dist bins (skipEmpty bins top))))

/-- The start: experimental/algorithms/delta_stepping.hpp:47-54, 91-100, 152-161, 211-220, 273-282. -/
def bInit (g : Rows α) (dmax source : Nat) : Res (BState α) := do
  let dist ← vset (List.replicate g.length dmax) source 0
  return .head dist [[source]] 0

end NW.DeltaExp
