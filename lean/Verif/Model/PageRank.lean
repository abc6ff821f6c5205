import Verif.Concur
import Verif.Spec.Walk
import Mathlib.Data.Rat.Defs
import Mathlib.Algebra.Order.Field.Rat

/-!
# Model of algorithms/page_rank.hpp

Simplifications: numbers are exact rationals; a quotient by zero is `none` and reading one is reported as a fault of its own (in the program the score becomes infinite
or not a number); reads and writes of single numbers are atomic.  TBB decides which thread processes which vertices in which order: every vertex is a task of its own
here and the tasks are interleaved arbitrarily, which includes every way of forming blocks.
-/

namespace NW.PageRank
open Spec

variable {α : Type}

/-- What is left to do for vertex `i` in a round: page_rank.hpp:127-136.  `sum` adds up the contributions, `store` writes the score, `share` the contribution. -/
inductive Task (α : Type) where
  | sum (z : ℚ) (rest : List (Nat × α))
  | store (z : ℚ)
  | share (err : ℚ)
  | done (err : ℚ)

/-- Scores and contributions: `page_rank` and `outgoing_contrib`. -/
structure Mem where
  rank : List ℚ
  contrib : List (Option ℚ)

/-- `x / (Real)n`. -/
def quot (x : ℚ) (n : Nat) : Option ℚ := if n = 0 then none else some (x / n)

/-- The next access to memory for vertex `i`: page_rank.hpp:127-136. -/
def taskStep (base d : ℚ) (deg : List Nat) (m : Mem) (i : Nat) : Task α → Res (Task α × Mem)
  | .sum z [] => return (.store z, m)
  | .sum z (e :: rest) => do
    let c ← vget m.contrib e.1
    match c with
    | none => .error .divByZero
    | some c => return (.sum (z + c) rest, m)
  | .store z => do
    let old ← vget m.rank i
    let rank ← vset m.rank i (base + d * z)
    let new ← vget rank i
    return (.share |new - old|, { m with rank := rank })
  | .share err => do
    let x ← vget m.rank i
    let n ← vget deg i
    let contrib ← vset m.contrib i (quot x n)
    return (.done err, { m with contrib := contrib })
  | .done err => return (.done err, m)

/-- The state during a round: `left` rounds may still follow this one, `rounds` have been completed. -/
structure St (α : Type) where
  left : Nat
  rounds : Nat
  tasks : List (Task α)
  mem : Mem

def Task.isDone : Task α → Bool
  | .done _ => true
  | _ => false

def Task.err : Task α → ℚ
  | .done e => e
  | _ => 0

/-- The tasks of a round: page_rank.hpp:123-140. -/
def tasks (g : Rows α) : List (Task α) := g.map fun row => .sum 0 row

/-- The end of a round: the reduction has added up the errors; the test on `error` and the head of the loop: page_rank.hpp:121, 144-146.  The result is the scores and the
number of rounds (which is also printed, page_rank.hpp:142). -/
def endRound (g : Rows α) (threshold : ℚ) (s : St α) : St α ⊕ List ℚ × Nat :=
  if (s.tasks.map Task.err).sum < threshold then .inr (s.mem.rank, s.rounds + 1)
  else match s.left with
    | 0 => .inr (s.mem.rank, s.rounds + 1)
    | k + 1 => .inl { left := k, rounds := s.rounds + 1, tasks := tasks g, mem := s.mem }

/-- The steps of the loop: page_rank.hpp:121-147. -/
inductive Step (g : Rows α) (base d : ℚ) (deg : List Nat) (threshold : ℚ) : St α → Res (St α ⊕ List ℚ × Nat) → Prop
  | task {s : St α} {i : Nat} {t : Task α} (hi : s.tasks[i]? = some t) (ht : t.isDone = false) :
      Step g base d deg threshold s ((taskStep base d deg s.mem i t).map fun r => .inl { s with tasks := s.tasks.set i r.1, mem := r.2 })
  | join {s : St α} (h : ∀ t ∈ s.tasks, t.isDone = true) : Step g base d deg threshold s (.ok (endRound g threshold s))

/-- The initialisation; each of the two parallel loops writes each entry once, and reads only what the other one has written: page_rank.hpp:96-119. -/
def start (n : Nat) (deg : List Nat) (rank : List ℚ) : Res Mem := do
  let rank ← (List.range n).foldlM (fun r i => vset r i (1 / (n : ℚ))) rank
  let contrib ← (List.range n).mapM fun i => do
    let x ← vget rank i
    let k ← vget deg i
    return quot x k
  return { rank := rank, contrib := contrib }

/-- `page_rank(graph, degrees, page_rank, d, threshold, max_iters, num_threads)`: page_rank.hpp:89-148.  With `max_iters = 0` the initial scores remain. -/
def Outcome (g : Rows α) (deg : List Nat) (d threshold : ℚ) (maxIters : Nat) (rank : List ℚ) (o : Res (List ℚ × Nat)) : Prop :=
  match start g.length deg rank with
  | .error f => o = .error f
  | .ok m =>
    match maxIters with
    | 0 => o = .ok (m.rank, 0)
    | k + 1 => Runs (Step g ((1 - d) / g.length) d deg threshold) { left := k, rounds := 0, tasks := tasks g, mem := m } o

/-- Under every schedule the same call ends without a fault, and with scores and a number of rounds that satisfy `Q`. -/
def Always (g : Rows α) (deg : List Nat) (d threshold : ℚ) (maxIters : Nat) (rank : List ℚ) (Q : List ℚ × Nat → Prop) : Prop :=
  match start g.length deg rank with
  | .error _ => False
  | .ok m =>
    match maxIters with
    | 0 => Q (m.rank, 0)
    | k + 1 => Sure (Step g ((1 - d) / g.length) d deg threshold) Q { left := k, rounds := 0, tasks := tasks g, mem := m }

end NW.PageRank
