import Verif.Model.Bench
import Verif.Model.CcBench

/-!
# Model of the tools bench/ProcessEdgelist.cpp and bench/SourceVerifier.cpp

Reading the options, the messages and the timers are not modelled; files are their contents.  Vertex ids have `w` bits, which are `k` bytes.
-/

namespace NW.Tools

variable {α : Type}

/-- `eval<Directed, int>(input, output)`: ProcessEdgelist.cpp:37-50.  `V` and `f` describe the attribute type; the result is the content of the file written.
The directedness is stored as 1 if directed, 0 if not (graph_base.hpp:26). -/
def convert (V : MM.Val α) (w k : Nat) (f : Bin.Field α) (directed : Bool) (text : List Char) : Res (List UInt8) := do
  let el ← if directed then MM.readDirected V w text else MM.readUndirected V w text
  return Bin.writeEdgeList (if directed then 1 else 0) (Bin.imageOf k [f] el)

/-- `main` of `process_edge_list`: ProcessEdgelist.cpp:52-68; `d`, `u` say whether the options `-d` and `-u` are given.  The results are the files they name. -/
def processEdgeList (V : MM.Val α) (w k : Nat) (f : Bin.Field α) (d u : Bool) (text : List Char) : Res (Option (List UInt8) × Option (List UInt8)) := do
  let a ← if d then (convert V w k f true text).map some else pure none
  let b ← if u then (convert V w k f false text).map some else pure none
  return (a, b)

/-- The loop that compares the sources: SourceVerifier.cpp:63-68. -/
def failures (sources random : List Nat) : Res Nat :=
  (List.range sources.length).foldlM (fun n i => do
    let a ← vget sources i
    let b ← vget random i
    return if a ≠ b then n + 1 else n) 0

/-- `main` of `sources`: SourceVerifier.cpp:42-72.  `text` is the file of sources, `el` the edge list that `load_graph` has returned (C105), `draw` the random numbers.
`none`: the number of sources is not `trials * iterations`.  Otherwise the number of failures that is printed. -/
def verifySources (L : CcBench.Lib) (draw : Nat → Nat) (w iterations trials : Nat) (text : List Char) (el : EdgeList Unit) : Run (Option Nat) := do
  let sources ← Run.lift (MM.readVector w text)
  if sources.length ≠ trials * iterations then return none
  else
    let g ← Run.lift (CcBench.adjacency L true 1 el)
    let random ← Bench.buildRandomSources L.sched draw (g.map fun r => r.map Prod.fst) sources.length
    let n ← Run.lift (failures sources random)
    return some n

end NW.Tools
