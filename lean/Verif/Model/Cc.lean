import Verif.Concur
import Verif.Spec.Walk

/-!
# Model of the connected components: algorithms/connected_components.hpp

Threads take atomic steps (one access to `comp` each) in any order; memory is sequentially consistent.
Vertex ids are unsigned integers below `B`, with wrap-around arithmetic.
-/

namespace NW.Cc
open Spec

variable {α : Type}

/-- Where a task stands in `link(u, v, comp)` (connected_components.hpp:119-131) or in the body of `compress` for `n` (146-151).
After a failed compare-and-swap the C++ variable `high` holds another value, but is not read any more. -/
inductive Pc where
  | idle
  /-- before `if (comp[u] == c) return`: 213 -/
  | gate (u c : Nat)
  /-- before `p1 = comp[u]`: 120 -/
  | link1 (u v : Nat)
  /-- before `p2 = comp[v]`: 121 -/
  | link2 (u v p1 : Nat)
  /-- before the loop test: 122 -/
  | head (u v p1 p2 : Nat)
  /-- before `p_high = comp[high]`: 125 -/
  | high (u v high low : Nat)
  /-- before the condition with the compare-and-swap: 127 -/
  | cas (u v high low pHigh : Nat)
  /-- before `p1 = comp[p_high]`: 128 -/
  | next1 (u v high low pHigh : Nat)
  /-- before `p2 = comp[low]`: 129 -/
  | next2 (u v high low p1 : Nat)
  /-- the three reads of `comp[n] != comp[comp[n]]`: 147 -/
  | cmpA (n : Nat)
  | cmpB (n a : Nat)
  | cmpC (n a b : Nat)
  /-- before `foo = comp[n]`: 148 -/
  | cmpFoo (n a : Nat)
  /-- before `bar = comp[foo]`: 149 -/
  | cmpBar (n a foo : Nat)
  /-- before `comp[n] = bar`: 150 -/
  | cmpStore (n a bar : Nat)
  | cmpDone (n : Nat)

/-- A task: where it stands, and the `link` calls it still has to make. -/
structure Task where
  pc : Pc
  rest : List (Nat × Nat)

def Task.finished (t : Task) : Bool :=
  match t.pc, t.rest with
  | .idle, [] => true
  | .cmpDone _, _ => true
  | _, _ => false

/-- `links u` are the calls made by the last loop of afforest for `u`: connected_components.hpp:215-226. -/
def lateLinks (g t : Rows α) (rounds u : Nat) : Res (List (Nat × Nat)) := do
  let r ← vget g u
  if t.length ≠ 0 then
    let tr ← vget t u
    return (r.drop rounds).map (fun e => (u, e.1)) ++ tr.map (fun e => (u, e.1))
  else return (r.drop rounds).map (fun e => (u, e.1))

/-- One atomic step of a task. -/
def taskStep (B : Nat) (late : Nat → Res (List (Nat × Nat))) (comp : List Nat) (t : Task) : Res (List Nat × Task) :=
  match t.pc with
  | .idle =>
    match t.rest with
    | [] => return (comp, t)
    | (u, v) :: r => return (comp, ⟨.link1 u v, r⟩)
  | .gate u c => do
    let x ← vget comp u
    if x = c then return (comp, ⟨.idle, []⟩)
    else
      let r ← late u
      return (comp, ⟨.idle, r⟩)
  | .link1 u v => do
    let p1 ← vget comp u
    return (comp, ⟨.link2 u v p1, t.rest⟩)
  | .link2 u v p1 => do
    let p2 ← vget comp v
    return (comp, ⟨.head u v p1 p2, t.rest⟩)
  | .head u v p1 p2 =>
    if p1 = p2 then return (comp, ⟨.idle, t.rest⟩)
    else
      let high := max p1 p2
      return (comp, ⟨.high u v high ((p1 + (p2 + B - high) % B) % B), t.rest⟩)
  | .high u v high low => do
    let pHigh ← vget comp high
    return (comp, ⟨.cas u v high low pHigh, t.rest⟩)
  | .cas u v high low pHigh =>
    if pHigh = low then return (comp, ⟨.idle, t.rest⟩)
    else if pHigh = high then do
      let cur ← vget comp high
      if cur = high then
        let comp' ← vset comp high low
        return (comp', ⟨.idle, t.rest⟩)
      else return (comp, ⟨.next1 u v high low pHigh, t.rest⟩)
    else return (comp, ⟨.next1 u v high low pHigh, t.rest⟩)
  | .next1 u v high low pHigh => do
    let p1 ← vget comp pHigh
    return (comp, ⟨.next2 u v high low p1, t.rest⟩)
  | .next2 u v _ low p1 => do
    let p2 ← vget comp low
    return (comp, ⟨.head u v p1 p2, t.rest⟩)
  | .cmpA n => do
    let a ← vget comp n
    return (comp, ⟨.cmpB n a, t.rest⟩)
  | .cmpB n a => do
    let b ← vget comp n
    return (comp, ⟨.cmpC n a b, t.rest⟩)
  | .cmpC n a b => do
    let c ← vget comp b
    if a ≠ c then return (comp, ⟨.cmpFoo n a, t.rest⟩)
    else return (comp, ⟨.cmpDone n, t.rest⟩)
  | .cmpFoo n a => do
    let foo ← vget comp n
    return (comp, ⟨.cmpBar n a foo, t.rest⟩)
  | .cmpBar n a foo => do
    let bar ← vget comp foo
    return (comp, ⟨.cmpStore n a bar, t.rest⟩)
  | .cmpStore n _ bar => do
    let comp' ← vset comp n bar
    return (comp', ⟨.cmpA n, t.rest⟩)
  | .cmpDone _ => return (comp, t)

/-! ## Any number of threads linking and compressing -/

/-- The threads run; the result is `comp` once all have finished. -/
inductive PoolStep (B : Nat) (late : Nat → Res (List (Nat × Nat))) : List Nat × List Task → Res ((List Nat × List Task) ⊕ List Nat) → Prop
  | task {comp : List Nat} {ts : List Task} {i : Nat} {t : Task} (hi : ts[i]? = some t) (hf : t.finished = false) :
      PoolStep B late (comp, ts) ((taskStep B late comp t).map fun x => .inl (x.1, ts.set i x.2))
  | join {comp : List Nat} {ts : List Task} (hf : ∀ t ∈ ts, t.finished = true) : PoolStep B late (comp, ts) (.ok (.inr comp))

/-- A thread that makes the given `link` calls. -/
def linker (l : List (Nat × Nat)) : Task := ⟨.idle, l⟩

/-- A task compressing `n`. -/
def compressor (n : Nat) : Task := ⟨.cmpA n, []⟩

/-! ## afforest -/

/-- The parallel loops of `afforest`. -/
inductive Phase where
  | links (r : Nat)
  | compress
  | finish

/-- The loops in order: connected_components.hpp:201-229. -/
def phases (rounds : Nat) : List Phase := ((List.range rounds).flatMap fun r => [.links r, .compress]) ++ [.finish, .compress]

/-- The task of `u` in round `r`: connected_components.hpp:202-206. -/
def roundTask (g : Rows α) (r u : Nat) : Res Task := do
  let row ← vget g u
  if h : r < row.length then return linker [(u, row[r].1)] else return linker []

/-- The tasks of a phase; `c` is the label returned by `sample_frequent_element` (used in the last loop only).
Simplification: the reads `graph[u].size()` of a round, which do not depend on the schedule, are made when the round starts. -/
def spawn (g : Rows α) (m c : Nat) : Phase → Res (List Task)
  | .links r => (List.range m).mapM (roundTask g r)
  | .compress => return (List.range m).map compressor
  | .finish => return (List.range m).map fun u => ⟨.gate u c, []⟩

structure State where
  comp : List Nat
  tasks : List Task
  todo : List Phase

/-- The steps of `afforest`: connected_components.hpp:197-232.  The sampled label `c` is the label of some vertex (166-180; the sampling itself,
which only reads, is not modelled further). -/
inductive AStep (B : Nat) (g t : Rows α) (rounds : Nat) : State → Res (State ⊕ List Nat) → Prop
  | task {comp : List Nat} {ts : List Task} {todo : List Phase} {i : Nat} {x : Task} (hi : ts[i]? = some x) (hf : x.finished = false) :
      AStep B g t rounds ⟨comp, ts, todo⟩
        ((taskStep B (lateLinks g t rounds) comp x).map fun y => .inl ⟨y.1, ts.set i y.2, todo⟩)
  | next {comp : List Nat} {ts : List Task} {p : Phase} {todo : List Phase} {c : Nat} (hf : ∀ t ∈ ts, t.finished = true) (hc : c ∈ comp) :
      AStep B g t rounds ⟨comp, ts, p :: todo⟩ ((spawn g comp.length c p).map fun ts' => .inl ⟨comp, ts', todo⟩)
  | done {comp : List Nat} {ts : List Task} (hf : ∀ t ∈ ts, t.finished = true) : AStep B g t rounds ⟨comp, ts, []⟩ (.ok (.inr comp))

/-- The start, for a graph with `size() == size`: connected_components.hpp:199-200. -/
def start (size rounds : Nat) : State := ⟨List.range (size + 1), [], phases rounds⟩

end NW.Cc
