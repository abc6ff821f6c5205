import Verif.Model.CcBench
import Verif.Model.Bfs
import Verif.Model.BfsExp
import Verif.Model.BfsDirExp
import Verif.Model.Dobfs
import Verif.Model.Util

/-!
# Model of the breadth-first search benchmark, bench/bfs.cpp

Reading the options and the file, the timers and the logs are not modelled; the edge list is the one that `load_graph` has returned (C105), and the sources are given (C104, C105).
The line numbers are those of bench/bfs.cpp.  Vertex ids have 32 bits, so that the null vertex is `2 ^ 32 - 1`.
-/

namespace NW.BfsBench
open Spec

/-- The null vertex. -/
def null : Nat := 2 ^ 32 - 1

/-- The options `-a`, `-b` and `-B`, as given: 60-62. -/
structure Opts where
  a : Nat
  b : Nat
  bins : Nat

/-- `x ?: d`: 60-62. -/
def orElse (x d : Nat) : Nat := if x = 0 then d else x

/-- The two graphs: 74-75.  Both are built from the edges of a directed list. -/
def reader (L : CcBench.Lib) (el : EdgeList Unit) : Res (Rows Unit × Rows Unit) := do
  let graph ← CcBench.adjacency L true 1 el
  let gx ← CcBench.adjacency L true 0 el
  return (graph, gx)

/-- The arguments of the direction-optimizing searches, with `bins` queues; `M` is the number of edges that are stored. -/
def args (o : Opts) (bins : Nat) (p : Rows Unit × Rows Unit) : Dobfs.Args Unit where
  out := p.1
  inn := p.2
  bins := bins
  M := (p.1.map List.length).sum
  alpha := orElse o.a 15
  beta := orElse o.b 18
  inf := null

/-- An algorithm that initialises its state and then takes steps in any order. -/
def fromStart {σ ρ : Type} (start : Res σ) (step : σ → Res (σ ⊕ ρ) → Prop) : Run ρ := do
  let s ← Run.lift start
  fun o => Runs step s o

/-- `pow2(ceil_log2(num_bins))` for an `int`: algorithms/bfs.hpp:167. -/
def roundedBins (bins : Nat) : Res Nat := do
  let k ← Util.ceilLog2 32 bins
  Util.pow2 64 k

/-- Version 11: 126-127. -/
def dobfs (o : Opts) (p : Rows Unit × Rows Unit) (source : Nat) : Run (List Nat) := do
  let n ← Run.lift (roundedBins (orElse o.bins 32))
  let garbage ← Run.choose (fun g : List Bool => g.length = p.1.length)
  fromStart (Dobfs.init (args o n p) source garbage) (Dobfs.Step (args o n p))

/-- Versions 1 and 2, on `threads` threads: 108-111. -/
def dirExp (ver : BfsDirExp.Ver) (o : Opts) (threads : Nat) (p : Rows Unit × Rows Unit) (source : Nat) : Run (List Nat) := do
  let garbage ← Run.choose (fun g : List Bool => g.length = p.1.length)
  fromStart (BfsDirExp.init (args o (orElse o.bins 32) p) source garbage) (BfsDirExp.Step ver (args o (orElse o.bins 32) p) threads)

/-- The dispatch on the version: 104-135.  An unknown version gives an empty vector. -/
def parents (o : Opts) (threads id : Nat) (p : Rows Unit × Rows Unit) (source : Nat) : Run (List Nat) :=
  match id with
  | 0 => fun r => Bfs.Run null p.1 source r
  | 1 => dirExp .v1 o threads p source
  | 2 => dirExp .v2 o threads p source
  | 6 => fun r => BfsExp.RunV6 null p.1 source r
  | 7 => fromStart (BfsExp.init .v7 null p.1 source) (BfsExp.Step .v7 null p.1)
  | 8 => fromStart (BfsExp.init .v8 null p.1 source) (BfsExp.Step .v8 null p.1)
  | 9 => fromStart (BfsExp.init .v9 null p.1 source) (BfsExp.Step .v9 null p.1)
  | 10 => fromStart (BfsExp.init .topDown null p.1 source) (BfsExp.Step .topDown null p.1)
  | 11 => dobfs o p source
  | 12 => fromStart (BfsExp.init .bitmap null p.1 source) (BfsExp.Step .bitmap null p.1)
  | 13 => fromStart (BfsExp.buInit null p.2 source) (BfsExp.BuStep null p.1 p.2)
  | _ => pure []

/-- What becomes of one trial. -/
structure Trial where
  threads : Nat
  id : Nat
  source : Nat
  parents : List Nat
  accepted : Bool

/-- One trial with `--verify`: 99-141.  The code drops the verdict; the verifier prints a message if it does not accept. -/
def trial (o : Opts) (p : Rows Unit × Rows Unit) (threads id source : Nat) : Run Trial := do
  let par ← parents o threads id p source
  let ok ← fun r => Bfs.Verifier null p.1 p.2 source par r
  return ⟨threads, id, source, par, ok⟩

/-- The trials in the order in which they are made: 95-98. -/
def plan (threads ids sources : List Nat) : List (Nat × Nat × Nat) :=
  threads.flatMap fun t => ids.flatMap fun i => sources.map fun s => (t, i, s)

/-- `main` with `--verify`: 52-155. -/
def main (L : CcBench.Lib) (o : Opts) (threads ids sources : List Nat) (el : EdgeList Unit) : Run (List Trial) := do
  let p ← Run.lift (reader L el)
  (plan threads ids sources).foldlM (fun ts x => do
    let t ← trial o p x.1 x.2.1 x.2.2
    return ts ++ [t]) []

end NW.BfsBench
