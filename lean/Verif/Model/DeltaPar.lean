import Verif.Model.Sssp

/-!
# Model of the parallel delta stepping: algorithms/delta_stepping.hpp:173-224

The tasks of the two nested parallel loops (one per frontier vertex, one per edge of such a vertex) take atomic steps in any order.
Simplifications: atomic accesses are sequentially consistent; growing the vector of bins under the lock and the `push_back` of a concurrent vector
are one atomic step (the double-checked locking only serialises the growth; nothing reads `bins` in the parallel part except these pushes);
the initialisation of `tdist` in parallel is a `replicate`.

`flag` says what reading the uninitialised variable `success` does: `none` is the C++ semantics (undefined behaviour, the outcome `uninitialised`),
`some b` assumes that it reads as `b`.
-/

namespace NW.Sssp
open Spec

variable {α : Type}

/-- Where a task stands: the task of a frontier vertex not yet started; the `relax` of an edge not yet started; after reading the distance of the tail
(`next`); after reading the distance of the head (`prev`; `tried` once the compare-and-swap has been tried, which assigns `success`);
about to enter the bin; finished. -/
inductive PTask (α : Type) where
  | vertex (u : Nat)
  | start (u : Nat) (e : Nat × α)
  | haveNext (v next : Nat)
  | havePrev (v next prev : Nat) (tried : Bool)
  | push (v next : Nat)
  | done

/-- One atomic step of a task; the second list are the tasks it creates: delta_stepping.hpp:186-206 (`relax`), 213-217 (a vertex). -/
def pTask (g : Rows α) (wt : Nat × α → Nat) (dmax delta : Nat) (flag : Option Bool) (top : Nat) (dist : List Nat) (bins : List (List Nat)) (t : PTask α) :
    Res (List Nat × List (List Nat) × PTask α × List (PTask α)) :=
  match t with
  | .vertex u => do
    let du ← vget dist u
    if du ≥ delta * top then
      let r ← vget g u
      return (dist, bins, .done, r.map (.start u))
    else return (dist, bins, .done, [])
  | .start u e => do
    let du ← vget dist u
    return (dist, bins, .haveNext e.1 ((du + wt e) % (dmax + 1)), [])
  | .haveNext v next => do
    let prev ← vget dist v
    return (dist, bins, .havePrev v next prev false, [])
  | .havePrev v next prev tried =>
    if next < prev then do
      let cur ← vget dist v
      if cur = prev then
        let dist' ← vset dist v next
        return (dist', bins, .push v next, [])
      else return (dist, bins, .havePrev v next cur true, [])
    else if tried then return (dist, bins, .done, [])
    else match flag with
      | none => .error .uninitialised
      | some false => return (dist, bins, .done, [])
      | some true => return (dist, bins, .push v next, [])
  | .push v next => do
    let bins' ← pushBin delta v next bins
    return (dist, bins', .done, [])
  | .done => return (dist, bins, .done, [])

def PTask.isDone : PTask α → Bool
  | .done => true
  | _ => false

/-- At the head of the outer loop, or inside a round. -/
inductive PState (α : Type) where
  | head (dist : List Nat) (bins : List (List Nat)) (top : Nat)
  | round (dist : List Nat) (bins : List (List Nat)) (top : Nat) (ts : List (PTask α))

/-- The head of the outer loop: delta_stepping.hpp:210-212. -/
def pHead (dist : List Nat) (bins : List (List Nat)) (top : Nat) : Res (PState α ⊕ List Nat) :=
  if top < bins.length then do
    let frontier ← vget bins top
    let bins' ← vset bins top []
    return .inl (.round dist bins' top (frontier.map .vertex))
  else return .inr dist

/-- The steps: delta_stepping.hpp:210-222; the end of a round skips the empty bins, 219-221. -/
inductive PStep (g : Rows α) (wt : Nat × α → Nat) (dmax delta : Nat) (flag : Option Bool) : PState α → Res (PState α ⊕ List Nat) → Prop
  | head {dist bins top} : PStep g wt dmax delta flag (.head dist bins top) (pHead dist bins top)
  | task {dist bins top} {ts : List (PTask α)} {i : Nat} {t : PTask α} (hi : ts[i]? = some t) (hf : t.isDone = false) :
      PStep g wt dmax delta flag (.round dist bins top ts)
        ((pTask g wt dmax delta flag top dist bins t).map fun x => .inl (.round x.1 x.2.1 top (ts.set i x.2.2.1 ++ x.2.2.2)))
  | join {dist bins top} {ts : List (PTask α)} (hf : ∀ t ∈ ts, t.isDone = true) :
      PStep g wt dmax delta flag (.round dist bins top ts) (.ok (.inl (.head dist bins (skipEmpty bins top))))

/-- The start: delta_stepping.hpp:176-184. -/
def pInit (g : Rows α) (dmax source : Nat) : Res (PState α) := do
  let dist ← vset (List.replicate g.length dmax) source 0
  return .head dist [[source]] 0

end NW.Sssp
