import Verif.Model.Sssp
import Verif.Run

/-!
# Model of the shortest path benchmark, bench/sssp.cpp

The line numbers are those of bench/sssp.cpp.  The graph is given by its rows; weights are natural numbers (the benchmark reads `int`s; negative ones are not modelled); distances are unsigned integers up to `dmax`
with wrap-around addition.  Reading the options and the file, the timers and the messages are not modelled.
-/

namespace NW.SsspBench
open Spec Sssp

variable {α : Type}

/-- `mq.emplace(v)`: 84. -/
def pushV (v _d : Nat) (q : List Nat) : Res (List Nat) := return q ++ [v]

/-- The loop of `dijkstra`: 73-88.  The comparison of the heap looks at `dist`, which changes while the vertices are in the heap; the model lets `top()` be any entry. -/
inductive OStep (g : Rows α) (wt : Nat × α → Nat) (dmax : Nat) : List Nat × List Nat → Res ((List Nat × List Nat) ⊕ List Nat) → Prop
  | done {dist : List Nat} : OStep g wt dmax (dist, []) (.ok (.inr dist))
  | pop {dist q q' : List Nat} {u : Nat} (h : q.Perm (u :: q')) :
      OStep g wt dmax (dist, q) (do
        let r ← vget g u
        let st ← r.foldlM (relax wt dmax pushV u) (dist, q')
        return .inl st)

/-- The value for "not reached": a quarter of the largest distance, 62. -/
def inf (dmax : Nat) : Nat := dmax / 4

/-- `dijkstra(graph, source, weight)`: 56-90. -/
def dijkstra (g : Rows α) (wt : Nat × α → Nat) (dmax source : Nat) : Run (List Nat) := do
  let dist ← Run.lift (vset (List.replicate g.length (inf dmax)) source 0)
  (Runs (OStep g wt dmax) (dist, [source]) : Run (List Nat))

/-- `std::equal(dist.begin(), dist.end(), oracle.begin())`: nothing tells it where `oracle` ends. -/
def stdEqual : List Nat → List Nat → Res Bool
  | [], _ => .ok true
  | _ :: _, [] => .error .outOfBounds
  | x :: xs, y :: ys => if x = y then stdEqual xs ys else .ok false

/-- `SSSPVerifier(graph, source, dist, verbose, weight)`: 92-115.  With `verbose`, `oracle[i]` is read for all `i` below `dist.size()`. -/
def verifier (g : Rows α) (wt : Nat × α → Nat) (dmax source : Nat) (dist : List Nat) (verbose : Bool) : Run Bool := do
  let oracle ← dijkstra g wt dmax source
  let b ← Run.lift (stdEqual dist oracle)
  if b then return true
  else if verbose then
    let _ ← Run.lift ((List.range dist.length).mapM (vget oracle))
    return false
  else return false

/-- Version 0 with `--verify`: 120-124, 193-201; what the verifier says. -/
def version0 (g : Rows α) (wt : Nat × α → Nat) (dmax delta source : Nat) (verbose : Bool) : Run Bool := do
  let dist ← (Delta g wt dmax delta source : Run (List Nat))
  verifier g wt dmax source dist verbose

/-- Version 13 with `--verify`: 137-138. -/
def version13 (g : Rows α) (wt : Nat × α → Nat) (dmax source : Nat) (verbose : Bool) : Run Bool := do
  let dist ← dijkstra g wt dmax source
  verifier g wt dmax source dist verbose

/-- The sources in the order in which one version uses them: 184-190. -/
def sourcesUsed (sources : List Nat) (trials iterations : Nat) : Res (List Nat) :=
  (List.range trials).foldlM (fun acc i => do
    let l ← (List.range iterations).mapM fun j => vget sources (i * iterations + j)
    return acc ++ l) []

/-- `-r v`: 169-171. -/
def repeated (trials v : Nat) : List Nat := List.replicate trials v

end NW.SsspBench
