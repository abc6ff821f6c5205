import Verif.Concur
import Verif.Spec.Walk

/-!
# Model of experimental/algorithms/connected_components.hpp: the Shiloach–Vishkin loops `sv_v6`, `sv_v8`, `sv_v9`

Threads take atomic steps (one access to `comp` or `change` each) in any order.  Simplification: the accesses, which are plain and race in the code, are
taken to be atomic and sequentially consistent.  There is no compare-and-swap, so two threads may write the same entry one after the other.
Vertex ids are unsigned integers below `B`, with wrap-around arithmetic.
-/

namespace NW.SvExp
open Spec

variable {α : Type}

/-- Where a thread stands in the body of the loop over edges: 491-502, 535-547, 577-588. -/
inductive Pc where
  /-- before the next edge -/
  | idle
  /-- before `comp_v = comp[v]`: 494, 538, 579 -/
  | readV (u v cu : Nat)
  /-- before the test `high_comp == comp[high_comp]`: 498, 543, 584 -/
  | test (u v high low : Nat)
  /-- before `change = true`: 499, 544, 585 -/
  | mark (u v high low : Nat)
  /-- before `comp[high_comp] = low_comp`: 500, 545, 586 -/
  | store (high low : Nat)

/-- A task: where it stands, and its edges still to come. -/
structure Task where
  pc : Pc
  rest : List (Nat × Nat)

def Task.finished (t : Task) : Bool :=
  match t.pc, t.rest with
  | .idle, [] => true
  | _, _ => false

/-- One atomic step of a task, on `comp` and `change`. -/
def taskStep (B : Nat) (comp : List Nat) (change : Bool) (t : Task) : Res (List Nat × Bool × Task) :=
  match t.pc with
  | .idle =>
    match t.rest with
    | [] => return (comp, change, t)
    | (u, v) :: r => do
      let cu ← vget comp u
      return (comp, change, ⟨.readV u v cu, r⟩)
  | .readV u v cu => do
    let cv ← vget comp v
    if cu = cv then return (comp, change, ⟨.idle, t.rest⟩)
    else
      let high := max cu cv
      return (comp, change, ⟨.test u v high ((cu + (cv + B - high)) % B), t.rest⟩)
  | .test u v high low => do
    let x ← vget comp high
    if high = x then return (comp, change, ⟨.mark u v high low, t.rest⟩)
    else return (comp, change, ⟨.idle, t.rest⟩)
  | .mark _ _ high low => return (comp, true, ⟨.store high low, t.rest⟩)
  | .store high low => do
    let comp' ← vset comp high low
    return (comp', change, ⟨.idle, t.rest⟩)

inductive State where
  /-- at the test of the loop over iterations: 482-487, 525-530, 569-573 -/
  | head (iter : Nat) (change : Bool) (comp : List Nat)
  /-- in the parallel loop over edges -/
  | run (iter : Nat) (change : Bool) (comp : List Nat) (ts : List Task)
  /-- in the sequential loop that compresses, at vertex `n`: 505-509, 551-555, 591-595 -/
  | flat (iter : Nat) (change : Bool) (comp : List Nat) (n : Nat)

/-- One test of the `while` loop for `n`, with its body: 506-508, 552-554, 592-594. -/
def flatStep (iter : Nat) (change : Bool) (comp : List Nat) (n : Nat) : Res State := do
  let a ← vget comp n
  let b ← vget comp a
  if a ≠ b then
    let comp' ← vset comp n b
    return .flat iter change comp' n
  else return .flat iter change comp (n + 1)

/-- The tasks for the given groups of edges. -/
def tasks (cs : List (List (Nat × Nat))) : List Task := cs.map fun c => ⟨.idle, c⟩

/-- The steps, where `split g cs` says how the edges may be divided among tasks. -/
inductive Step (split : Rows α → List (List (Nat × Nat)) → Prop) (B : Nat) (g : Rows α) : State → Res (State ⊕ List Nat) → Prop
  | stop {iter : Nat} {change : Bool} {comp : List Nat} (h : ¬ iter < g.length ∨ change = false) : Step split B g (.head iter change comp) (.ok (.inr comp))
  | go {iter : Nat} {comp : List Nat} {cs : List (List (Nat × Nat))} (h : iter < g.length) (hs : split g cs) :
      Step split B g (.head iter true comp) (.ok (.inl (.run iter false comp (tasks cs))))
  | task {iter : Nat} {change : Bool} {comp : List Nat} {ts : List Task} {i : Nat} {t : Task} (hi : ts[i]? = some t) (hf : t.finished = false) :
      Step split B g (.run iter change comp ts) ((taskStep B comp change t).map fun x => .inl (.run iter x.2.1 x.1 (ts.set i x.2.2)))
  | join {iter : Nat} {change : Bool} {comp : List Nat} {ts : List Task} (hf : ∀ t ∈ ts, t.finished = true) :
      Step split B g (.run iter change comp ts) (.ok (.inl (.flat iter change comp 0)))
  | flat {iter : Nat} {change : Bool} {comp : List Nat} {n : Nat} (h : n < g.length) :
      Step split B g (.flat iter change comp n) ((flatStep iter change comp n).map .inl)
  | again {iter : Nat} {change : Bool} {comp : List Nat} {n : Nat} (h : ¬ n < g.length) :
      Step split B g (.flat iter change comp n) (.ok (.inl (.head (iter + 1) change comp)))

/-- The edges of vertex `u`. -/
def rowEdges (g : Rows α) (u : Nat) : List (Nat × Nat) := (g.getD u []).map fun e => (u, e.1)

/-- `sv_v6`, `sv_v8`: a task for each vertex: 490-491, 532-535. -/
def byVertex (g : Rows α) (cs : List (List (Nat × Nat))) : Prop := cs = (List.range g.length).map (rowEdges g)

/-- `sv_v9`: the pieces of `edge_range`, 576-577.  Simplification: the edges may be cut anywhere, not only between vertices. -/
def byEdge (g : Rows α) (cs : List (List (Nat × Nat))) : Prop := cs.flatten = (List.range g.length).flatMap (rowEdges g)

/-- The start: 474-478, 517-521, 563-567. -/
def start (g : Rows α) : State := .head 0 true (List.range g.length)

end NW.SvExp
