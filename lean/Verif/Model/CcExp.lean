import Verif.Concur
import Verif.Spec.Walk

/-!
# Model of experimental/algorithms/connected_components.hpp: `hook`, `compress`, `push`, `link`, `pull`, and the algorithms made of them: `ccv1`,
`compute_connected_components_v2`, `Afforest`, `ccv5`

Threads take atomic steps (one access to `comp` each) in any order.  The elements of `comp` are plain integers in the code; simplification: their
accesses, which race, are taken to be atomic and sequentially consistent (`compare_and_swap` is atomic in the code).
Vertex ids are unsigned integers below `B`, with wrap-around arithmetic.  The line numbers are those of experimental/algorithms/connected_components.hpp.
-/

namespace NW.CcExp
open Spec

variable {α : Type}

/-- Where a task stands in `hook(u, v, comp)` (93-105), in `pull` (158-183), or in the body of `compress` for `n` (110-111). -/
inductive Pc where
  | idle
  /-- before the test `dominant_c != comp[u]`: 444, 465 -/
  | gate (u c : Nat)
  /-- before `min_compid = comp[u]`, with the neighbours of `u`: 159 -/
  | pull0 (u : Nat) (vs : List Nat)
  /-- before the read of `comp[v]` for the next neighbour, or, without neighbours left, before `p1 = comp[u]`: 164, 167.
  (The read at 169 has no effect.) -/
  | scan (u : Nat) (vs : List Nat) (m : Nat)
  /-- before `p1 = comp[u]`: 94 -/
  | link1 (u v : Nat)
  /-- before `p2 = comp[v]`: 95 -/
  | link2 (u v p1 : Nat)
  /-- before the loop test: 97, 171 -/
  | head (u v p1 p2 : Nat)
  /-- before `p_high = comp[high]`: 100, 174 -/
  | high (u v high low : Nat)
  /-- before the condition with the compare-and-swap: 101, 175 -/
  | cas (u v high low pHigh : Nat)
  /-- before the inner read of `comp[comp[high]]`: 102, 179 -/
  | next0 (u v high low : Nat)
  /-- before the outer read of `comp[comp[high]]`: 102, 179 -/
  | next1 (u v high low x : Nat)
  /-- before `p2 = comp[low]`: 103, 180 -/
  | next2 (u v high low p1 : Nat)
  /-- the three reads of `comp[n] != comp[comp[n]]`: 110 -/
  | cmpA (n : Nat)
  | cmpB (n a : Nat)
  | cmpC (n a b : Nat)
  /-- the two reads and the write of `comp[n] = comp[comp[n]]`: 111 -/
  | cmpFoo (n a : Nat)
  | cmpBar (n a foo : Nat)
  | cmpStore (n a bar : Nat)
  | cmpDone (n : Nat)

/-- A task: where it stands, and the `hook` calls it still has to make. -/
structure Task where
  pc : Pc
  rest : List (Nat × Nat)

def Task.finished (t : Task) : Bool :=
  match t.pc, t.rest with
  | .idle, [] => true
  | .cmpDone _, _ => true
  | _, _ => false

/-- The calls of `push(g, u, comp)`, and of `push(t_graph, u, comp)` if the second graph has rows: 445-448.  For `ccv5` (465) the second graph is empty. -/
def lateCalls (g t : Rows α) (u : Nat) : Res (List (Nat × Nat)) := do
  let r ← vget g u
  if t.length ≠ 0 then
    let tr ← vget t u
    return r.map (fun e => (u, e.1)) ++ tr.map (fun e => (u, e.1))
  else return r.map (fun e => (u, e.1))

/-- One atomic step of a task. -/
def taskStep (B : Nat) (late : Nat → Res (List (Nat × Nat))) (comp : List Nat) (t : Task) : Res (List Nat × Task) :=
  match t.pc with
  | .idle =>
    match t.rest with
    | [] => return (comp, t)
    | (u, v) :: r => return (comp, ⟨.link1 u v, r⟩)
  | .gate u c => do
    let x ← vget comp u
    if x = c then return (comp, ⟨.idle, []⟩)
    else
      let r ← late u
      return (comp, ⟨.idle, r⟩)
  | .pull0 u vs => do
    let m ← vget comp u
    return (comp, ⟨.scan u vs m, t.rest⟩)
  | .scan u vs m =>
    match vs with
    | v :: vs' => do
      let x ← vget comp v
      return (comp, ⟨.scan u vs' (min m x), t.rest⟩)
    | [] => do
      let p1 ← vget comp u
      return (comp, ⟨.head u m p1 m, t.rest⟩)
  | .link1 u v => do
    let p1 ← vget comp u
    return (comp, ⟨.link2 u v p1, t.rest⟩)
  | .link2 u v p1 => do
    let p2 ← vget comp v
    return (comp, ⟨.head u v p1 p2, t.rest⟩)
  | .head u v p1 p2 =>
    if p1 = p2 then return (comp, ⟨.idle, t.rest⟩)
    else
      let high := max p1 p2
      return (comp, ⟨.high u v high (((p1 + p2) % B + B - high) % B), t.rest⟩)
  | .high u v high low => do
    let pHigh ← vget comp high
    return (comp, ⟨.cas u v high low pHigh, t.rest⟩)
  | .cas u v high low pHigh =>
    if pHigh = low then return (comp, ⟨.idle, t.rest⟩)
    else do
      let cur ← vget comp high
      if cur = high then
        let comp' ← vset comp high low
        return (comp', ⟨.idle, t.rest⟩)
      else return (comp, ⟨.next0 u v high low, t.rest⟩)
  | .next0 u v high low => do
    let x ← vget comp high
    return (comp, ⟨.next1 u v high low x, t.rest⟩)
  | .next1 u v high low x => do
    let p1 ← vget comp x
    return (comp, ⟨.next2 u v high low p1, t.rest⟩)
  | .next2 u v _ low p1 => do
    let p2 ← vget comp low
    return (comp, ⟨.head u v p1 p2, t.rest⟩)
  | .cmpA n => do
    let a ← vget comp n
    return (comp, ⟨.cmpB n a, t.rest⟩)
  | .cmpB n a => do
    let b ← vget comp n
    return (comp, ⟨.cmpC n a b, t.rest⟩)
  | .cmpC n a b => do
    let c ← vget comp b
    if a ≠ c then return (comp, ⟨.cmpFoo n a, t.rest⟩)
    else return (comp, ⟨.cmpDone n, t.rest⟩)
  | .cmpFoo n a => do
    let foo ← vget comp n
    return (comp, ⟨.cmpBar n a foo, t.rest⟩)
  | .cmpBar n a foo => do
    let bar ← vget comp foo
    return (comp, ⟨.cmpStore n a bar, t.rest⟩)
  | .cmpStore n _ bar => do
    let comp' ← vset comp n bar
    return (comp', ⟨.cmpA n, t.rest⟩)
  | .cmpDone _ => return (comp, t)

/-- A parallel loop: its tasks run; the result is `comp` once all have finished. -/
inductive PoolStep (B : Nat) (late : Nat → Res (List (Nat × Nat))) : List Nat × List Task → Res ((List Nat × List Task) ⊕ List Nat) → Prop
  | task {comp : List Nat} {ts : List Task} {i : Nat} {t : Task} (hi : ts[i]? = some t) (hf : t.finished = false) :
      PoolStep B late (comp, ts) ((taskStep B late comp t).map fun x => .inl (x.1, ts.set i x.2))
  | join {comp : List Nat} {ts : List Task} (hf : ∀ t ∈ ts, t.finished = true) : PoolStep B late (comp, ts) (.ok (.inr comp))

/-- A task that makes the given `hook` calls. -/
def hooker (l : List (Nat × Nat)) : Task := ⟨.idle, l⟩

/-- A task compressing `n`. -/
def compressor (n : Nat) : Task := ⟨.cmpA n, []⟩

/-- The parallel loops. -/
inductive Phase where
  | pull
  | push
  | link (bound : Nat)
  | finish
  | compress

/-- The task of `u`: `push`, 139-145; `link`, 148-154; `pull`, 158-183. -/
def rowTask (g : Rows α) (p : Phase) (u : Nat) : Res Task := do
  let row ← vget g u
  match p with
  | .pull => return ⟨.pull0 u (row.map Prod.fst), []⟩
  | .link b => return hooker ((row.take b).map fun e => (u, e.1))
  | _ => return hooker (row.map fun e => (u, e.1))

/-- The tasks of a loop; `c` is the label returned by `findDominantComponentID` (used by `finish` only). -/
def spawn (g : Rows α) (c : Nat) (p : Phase) : Res (List Task) :=
  match p with
  | .compress => return (List.range g.length).map compressor
  | .finish => return (List.range g.length).map fun u => ⟨.gate u c, []⟩
  | p => (List.range g.length).mapM (rowTask g p)

/-- The loops of `ccv1`: 301-302. -/
def ccv1 : List Phase := [.push, .compress]

/-- The loops of `compute_connected_components_v2`, whose outer loop is run once: 288-291. -/
def ccv2 : List Phase := [.pull, .push, .compress]

/-- The loops of `Afforest`: 437-451. -/
def afforest (bound : Nat) : List Phase := [.link bound, .compress, .finish, .compress]

/-- The loops of `ccv5`: 462-468. -/
def ccv5 : List Phase := [.pull, .finish, .compress]

structure State where
  comp : List Nat
  tasks : List Task
  todo : List Phase

/-- The steps of the algorithms.  The sampled label `c` is the label of some vertex, or 0 without vertices (116-136; the sampling itself, which only reads,
is not modelled further). -/
inductive AStep (B : Nat) (g t : Rows α) : State → Res (State ⊕ List Nat) → Prop
  | task {comp : List Nat} {ts : List Task} {todo : List Phase} {i : Nat} {x : Task} (hi : ts[i]? = some x) (hf : x.finished = false) :
      AStep B g t ⟨comp, ts, todo⟩ ((taskStep B (lateCalls g t) comp x).map fun y => .inl ⟨y.1, ts.set i y.2, todo⟩)
  | next {comp : List Nat} {ts : List Task} {p : Phase} {todo : List Phase} {c : Nat} (hf : ∀ t ∈ ts, t.finished = true)
      (hc : c ∈ comp ∨ comp = [] ∧ c = 0) : AStep B g t ⟨comp, ts, p :: todo⟩ ((spawn g c p).map fun ts' => .inl ⟨comp, ts', todo⟩)
  | done {comp : List Nat} {ts : List Task} (hf : ∀ t ∈ ts, t.finished = true) : AStep B g t ⟨comp, ts, []⟩ (.ok (.inr comp))

/-- The start: 276-277, 298-299, 432-434, 459-460. -/
def start (g : Rows α) (todo : List Phase) : State := ⟨List.range g.length, [], todo⟩

end NW.CcExp
