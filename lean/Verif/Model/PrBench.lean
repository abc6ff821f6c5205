import Verif.Model.CcBench
import Verif.Model.Bench
import Verif.Model.PageRankExp
import Verif.Model.Util

/-!
# Model of the PageRank benchmark, bench/pr.cpp

Reading the options and the file, the timers and the logs are not modelled; the edge list is the one that `load_graph` has returned (C105).  Scores are exact rationals, as in `Model/PageRank`
(and so is the damping factor, 0.85).  The line numbers are those of bench/pr.cpp.
-/

namespace NW.PrBench
open Spec PageRank PageRankExp

/-- The damping factor: 96-150. -/
def damping : ℚ := 17 / 20

/-- The options `-t`, `-i` and `-n`: 61-63. -/
structure Opts where
  tolerance : ℚ
  maxIters : Nat
  trials : Nat

/-- `print_n_ranks(rankings, n)`: 46-52.  The code prints ten lines, whatever `n` is. -/
def printRanks (srt : (Nat → Nat → Bool) → List Nat → List Nat) (rankings : List ℚ) : Res (List (Nat × ℚ)) := do
  let perm ← Util.proxysort srt (fun a b => decide (a > b)) rankings
  (List.range 10).mapM fun i => do
    let v ← vget perm i
    let y ← vget rankings v
    return (v, y)

/-- The graph and the degrees: 77, 86.  `sched` is the order of the increments. -/
def reader (L : CcBench.Lib) (el : EdgeList Unit) : Res (Rows Unit × List Nat) := do
  let graph ← CcBench.adjacency L true 1 el
  let degrees ← Bench.buildDegrees L.sched (graph.map fun r => r.map Prod.fst)
  return (graph, degrees)

/-- The dispatch on the version: 95-155.  Under every schedule the call ends without a fault and leaves scores that satisfy `Q`.  Version 0 is commented out; it and an unknown version change nothing. -/
def call (o : Opts) (T id : Nat) (g : Rows Unit) (deg : List Nat) (rank : List ℚ) (Q : List ℚ → Prop) : Prop :=
  match id with
  | 1 => v1 g deg damping o.tolerance o.maxIters rank (fun r => Q r.1)
  | 2 => v2 g deg damping o.tolerance o.maxIters rank (fun r => Q r.1)
  | 3 => ∃ r, residual g false deg damping o.tolerance o.maxIters rank = .ok r ∧ Q r
  | 4 => v4 T g deg damping o.tolerance o.maxIters rank (fun r => Q r.1)
  | 6 => v6 g deg damping o.tolerance o.maxIters rank (fun r => Q r.1)
  | 7 => v789 g deg damping o.tolerance o.maxIters rank (fun r => Q r.1)
  | 8 => v789 g deg damping o.tolerance o.maxIters rank (fun r => Q r.1)
  | 9 => v789 g deg damping o.tolerance o.maxIters rank (fun r => Q r.1)
  | 10 => v10 g deg damping o.tolerance o.maxIters rank (fun r => Q r.1)
  | 11 => Always g deg damping o.tolerance o.maxIters rank (fun r => Q r.1)
  | 12 => v12 g deg damping o.tolerance o.maxIters rank (fun r => Q r.1)
  | 13 => ∃ r, residual g true deg damping o.tolerance o.maxIters rank = .ok r ∧ Q r
  | 14 => v14 g deg damping o.tolerance o.maxIters rank (fun r => Q r.1)
  | _ => Q rank

/-- `k` trials one after the other, on the same array: 93-156. -/
def trials (o : Opts) (T id : Nat) (g : Rows Unit) (deg : List Nat) : Nat → List ℚ → (List ℚ → Prop) → Prop
  | 0, rank, Q => Q rank
  | k + 1, rank, Q => call o T id g deg rank fun r => trials o T id g deg k r Q

/-- The trials of all pairs of a number of threads and a version, on the same array; `Q` holds of the scores that each pair leaves for `print_n_ranks`: 90-162. -/
def pairs (o : Opts) (g : Rows Unit) (deg : List Nat) : List (Nat × Nat) → List ℚ → List (List ℚ) → (List (List ℚ) → Prop) → Prop
  | [], _, acc, Q => Q acc
  | (T, id) :: ps, rank, acc, Q => trials o T id g deg o.trials rank fun r => pairs o g deg ps r (acc ++ [r]) Q

/-- `main` on one file, up to the printing: 70-163.  The array is new for every file (88). -/
def main (L : CcBench.Lib) (o : Opts) (threads ids : List Nat) (el : EdgeList Unit) (Q : List (List ℚ) → Prop) : Prop :=
  ∃ p, reader L el = .ok p ∧ pairs o p.1 p.2 (threads.flatMap fun T => ids.map fun id => (T, id)) (List.replicate p.1.length 0) [] Q

end NW.PrBench
