import Verif.Concur
import Verif.Spec.Walk

/-!
# Model of experimental/algorithms/connected_components.hpp: `compute_connected_components_v1`

Threads take atomic steps (one access to `comp` or `change` each) in any order; `compare_exchange_weak` may fail although the value is the expected one.
The operands of `!=` at 255 are read from left to right.  Simplification: the plain writes to `change`, which race, are taken to be atomic.
Vertex ids are unsigned integers below `B`, with wrap-around arithmetic.
-/

namespace NW.CcV1Exp
open Spec

variable {α : Type}

/-- Where a task stands in the loop over the edges of `u` (230-248), or in the final loop for `n` (253-259). -/
inductive Pc where
  /-- before the next edge: 230-234 -/
  | idle
  /-- before `p2 = comp[v]`: 235 -/
  | readV (u v p1 : Nat)
  /-- before the loop test: 236-238 -/
  | head (u p1 p2 : Nat)
  /-- before `p_high = comp[high]`: 239 -/
  | high (u high low : Nat)
  /-- before `p_high == low`, and then the read of `comp[low]` for the compare-and-swap: 240 -/
  | arg (u high low pHigh : Nat)
  /-- before the compare-and-swap: 240 -/
  | cas (u high low pHigh val : Nat)
  /-- before `change = true`: 241 -/
  | mark
  /-- before `high = comp[high]`: 244 -/
  | next0 (u high low : Nat)
  /-- before `p1 = comp[high]`: 245 -/
  | next1 (u high low : Nat)
  /-- before `p2 = comp[low]`: 246 -/
  | next2 (u low p1 : Nat)
  /-- the three reads of the test `comp[m] != comp[comp[m]]`: 255 -/
  | cmpA (n m : Nat)
  | cmpB (n m a : Nat)
  | cmpC (n m a b : Nat)
  /-- the two reads and the write of `comp[m].store(comp[comp[m]])`: 256 -/
  | foo (n m : Nat)
  | bar (n m x : Nat)
  | store (n m y : Nat)
  /-- before `m = comp[m]`: 257 -/
  | step (n m : Nat)
  /-- before `res[n] = comp[n]`: 259 -/
  | out (n : Nat)
  /-- `res[n]` is `r` -/
  | done (r : Nat)

/-- A task: where it stands, and its edges still to come. -/
structure Task where
  pc : Pc
  rest : List (Nat × Nat)

def Task.finished (t : Task) : Bool :=
  match t.pc, t.rest with
  | .idle, [] => true
  | .done _, _ => true
  | _, _ => false

/-- One atomic step of a task, on `comp` and `change`; `spurious` says whether a compare-and-swap fails regardless. -/
def taskStep (B : Nat) (spurious : Bool) (comp : List Nat) (change : Bool) (t : Task) : Res (List Nat × Bool × Task) :=
  match t.pc with
  | .idle =>
    match t.rest with
    | [] => return (comp, change, t)
    | (u, v) :: r => do
      let p1 ← vget comp u
      return (comp, change, ⟨.readV u v p1, r⟩)
  | .readV u v p1 => do
    let p2 ← vget comp v
    return (comp, change, ⟨.head u p1 p2, t.rest⟩)
  | .head u p1 p2 =>
    if p1 = p2 then return (comp, change, ⟨.idle, t.rest⟩)
    else
      let high := max p1 p2
      return (comp, change, ⟨.high u high (((p1 + p2) % B + B - high) % B), t.rest⟩)
  | .high u high low => do
    let pHigh ← vget comp high
    return (comp, change, ⟨.arg u high low pHigh, t.rest⟩)
  | .arg u high low pHigh =>
    if pHigh = low then return (comp, change, ⟨.mark, t.rest⟩)
    else do
      let val ← vget comp low
      return (comp, change, ⟨.cas u high low pHigh val, t.rest⟩)
  | .cas u high low pHigh val => do
    let cur ← vget comp high
    if cur = pHigh ∧ spurious = false then
      let comp' ← vset comp high val
      return (comp', change, ⟨.mark, t.rest⟩)
    else return (comp, change, ⟨.next0 u high low, t.rest⟩)
  | .mark => return (comp, true, ⟨.idle, t.rest⟩)
  | .next0 u high low => do
    let h ← vget comp high
    return (comp, change, ⟨.next1 u h low, t.rest⟩)
  | .next1 u high low => do
    let p1 ← vget comp high
    return (comp, change, ⟨.next2 u low p1, t.rest⟩)
  | .next2 u low p1 => do
    let p2 ← vget comp low
    return (comp, change, ⟨.head u p1 p2, t.rest⟩)
  | .cmpA n m => do
    let a ← vget comp m
    return (comp, change, ⟨.cmpB n m a, t.rest⟩)
  | .cmpB n m a => do
    let b ← vget comp m
    return (comp, change, ⟨.cmpC n m a b, t.rest⟩)
  | .cmpC n m a b => do
    let c ← vget comp b
    if a ≠ c then return (comp, change, ⟨.foo n m, t.rest⟩)
    else return (comp, change, ⟨.out n, t.rest⟩)
  | .foo n m => do
    let x ← vget comp m
    return (comp, change, ⟨.bar n m x, t.rest⟩)
  | .bar n m x => do
    let y ← vget comp x
    return (comp, change, ⟨.store n m y, t.rest⟩)
  | .store n m y => do
    let comp' ← vset comp m y
    return (comp', change, ⟨.step n m, t.rest⟩)
  | .step n m => do
    let m' ← vget comp m
    return (comp, change, ⟨.cmpA n m', t.rest⟩)
  | .out n => do
    let r ← vget comp n
    return (comp, change, ⟨.done r, t.rest⟩)
  | .done _ => return (comp, change, t)

inductive State where
  /-- at the test of the loop over iterations: 195-199 -/
  | head (iter : Nat) (change : Bool) (comp : List Nat)
  /-- in the parallel loop over vertices: 228-249 -/
  | run (iter : Nat) (change : Bool) (comp : List Nat) (ts : List Task)
  /-- in the final loop: 251-268 -/
  | flat (comp : List Nat) (ts : List Task)

/-- The edges of vertex `u`. -/
def rowEdges (g : Rows α) (u : Nat) : List (Nat × Nat) := (g.getD u []).map fun e => (u, e.1)

/-- The tasks of an iteration. -/
def hooks (g : Rows α) : List Task := (List.range g.length).map fun u => ⟨.idle, rowEdges g u⟩

/-- The tasks of the final loop. -/
def finals (g : Rows α) : List Task := (List.range g.length).map fun n => ⟨.cmpA n n, []⟩

/-- The entry of `res` a finished task has written. -/
def result (t : Task) : Nat :=
  match t.pc with
  | .done r => r
  | _ => 0

/-- The steps; with `weak`, a compare-and-swap may fail although the value is the expected one, which the C++ library allows here. -/
inductive Step (weak : Bool) (B : Nat) (g : Rows α) : State → Res (State ⊕ List Nat) → Prop
  | go {iter : Nat} {comp : List Nat} (h : iter < 2) : Step weak B g (.head iter true comp) (.ok (.inl (.run iter false comp (hooks g))))
  | leave {iter : Nat} {change : Bool} {comp : List Nat} (h : ¬ iter < 2 ∨ change = false) :
      Step weak B g (.head iter change comp) (.ok (.inl (.flat comp (finals g))))
  | task {iter : Nat} {change : Bool} {comp : List Nat} {ts : List Task} {i : Nat} {t : Task} {spurious : Bool} (hi : ts[i]? = some t)
      (hf : t.finished = false) (hs : spurious = true → weak = true) :
      Step weak B g (.run iter change comp ts) ((taskStep B spurious comp change t).map fun x => .inl (.run iter x.2.1 x.1 (ts.set i x.2.2)))
  | join {iter : Nat} {change : Bool} {comp : List Nat} {ts : List Task} (hf : ∀ t ∈ ts, t.finished = true) :
      Step weak B g (.run iter change comp ts) (.ok (.inl (.head (iter + 1) change comp)))
  | fin {comp : List Nat} {ts : List Task} {i : Nat} {t : Task} {spurious : Bool} (hi : ts[i]? = some t) (hf : t.finished = false) (hs : spurious = true → weak = true) :
      Step weak B g (.flat comp ts) ((taskStep B spurious comp false t).map fun x => .inl (.flat x.1 (ts.set i x.2.2)))
  | done {comp : List Nat} {ts : List Task} (hf : ∀ t ∈ ts, t.finished = true) : Step weak B g (.flat comp ts) (.ok (.inr (ts.map result)))

/-- The start: 187-194. -/
def start (g : Rows α) : State := .head 0 true (List.range g.length)

end NW.CcV1Exp
