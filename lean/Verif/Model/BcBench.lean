import Verif.Model.BfsBench
import Verif.Model.Brandes
import Verif.Model.BrandesPar
import Verif.Model.BcExp
import Verif.Model.BcExpPar
import Verif.Model.BcRace
import Verif.Model.BcVerify

/-!
# Model of the betweenness benchmark, bench/bc.cpp

Reading the options and the file, the timers and the logs are not modelled; the edge list is the one that `load_graph` has returned (C105), and the sources are given (C104, C105).
The line numbers are those of bench/bc.cpp.  Scores are exact rationals (as in C40).  The counting type is `double` in the versions 0 to 5 and 8 and in the verifier: counts are exact below `2 ^ 53`;
in the versions 6 and 7 it is `size_t`.  Vertex ids have 32 bits.
-/

namespace NW.BcBench
open Spec

/-- Path counts of type `double`: 52. -/
def double : Nat := 2 ^ 53

/-- Path counts of type `size_t`. -/
def sizeT : Nat := 2 ^ 64

/-- The largest vertex id. -/
def null : Nat := 2 ^ 32 - 1

/-- The arguments of the parallel versions. -/
def args (g : Rows Unit) (bins : Nat) : BrandesPar.Args Unit := { g := g, bins := bins, inf := null, M := double, dv := .exact }

/-- `brandes_bc<score_t, accum_t>(graph, sources, threads)`: 136. -/
def parallel (threads : Nat) (g : Rows Unit) (sources : List Nat) : Run (List (Option ℚ)) := do
  let bins ← Run.lift (BfsBench.roundedBins threads)
  let bc ← BfsBench.fromStart (BrandesPar.launch (args g bins) sources) (Team (BrandesPar.TStep (args g bins)))
  return BrandesPar.finish true bc

/-- The dispatch on the version: 124-146.  The scores are normalised, which is the default of all versions.  An unknown version gives an empty vector. -/
def centrality (threads id : Nat) (g : Rows Unit) (sources : List Nat) : Run (List (Option ℚ)) :=
  match id with
  | 0 => BcExp.bc2 BcExp.v0 double null g sources true
  | 1 => BcExp.bc2 BcExp.v1 double null g sources true
  | 2 => fun o => Runs (Serial (BcRace.VStep { g := g, inf := null, M := double }) (BcRace.finish true)) (BcRace.launch { g := g, inf := null, M := double } sources) o
  | 3 => BfsBench.fromStart (BcExpPar.launch (args g 32) sources) (Serial (BcExpPar.XStep (args g 32)) (BcExpPar.finish true))
  | 4 => do
    let bins ← Run.lift (BfsBench.roundedBins threads)
    BfsBench.fromStart (BcExpPar.launch (args g bins) sources) (Serial (BcExpPar.XStep (args g bins)) (BcExpPar.finish true))
  | 5 => parallel threads g sources
  | 6 => Brandes.brandesBc sizeT g true
  | 7 => BcExp.approxBrandes sizeT g sources
  | 8 => parallel threads g (List.range g.length)
  | _ => pure []

/-- What becomes of one trial. -/
structure Trial where
  threads : Nat
  id : Nat
  sources : List Nat
  scores : List (Option ℚ)
  accepted : Bool

/-- `trial_sources`: 122.  (For the last trial the code forms `&sources[n]` where `n` is the size; this is taken as the end of the array.) -/
def slice (iterations i : Nat) (sources : List Nat) : List Nat := (sources.drop (iterations * i)).take iterations

/-- One trial with `--verify`: 122-151.  The code drops the verdict; the verifier prints a message if it does not accept. -/
def trial (g : Rows Unit) (threads id : Nat) (sources : List Nat) : Run Trial := do
  let sc ← centrality threads id g sources
  let ok ← BcVerify.verifier .floating double g sources sc true
  return ⟨threads, id, sources, sc, ok⟩

/-- The trials in the order in which they are made: 114-122. -/
def plan (threads ids : List Nat) (trials iterations : Nat) (sources : List Nat) : List (Nat × Nat × List Nat) :=
  threads.flatMap fun t => ids.flatMap fun id => (List.range trials).map fun i => (t, id, slice iterations i sources)

/-- `main` with `--verify`: 77-155. -/
def main (L : CcBench.Lib) (threads ids : List Nat) (trials iterations : Nat) (sources : List Nat) (el : EdgeList Unit) : Run (List Trial) := do
  let g ← Run.lift (CcBench.adjacency L true 1 el)
  (plan threads ids trials iterations sources).foldlM (fun ts x => do
    let t ← trial g x.1 x.2.1 x.2.2
    return ts ++ [t]) []

end NW.BcBench
