import Verif.Run
import Verif.Model.Csr
import Verif.Model.Binary
import Verif.Model.MatrixMarket

/-!
# Model of the functions of bench/common.hpp that load graphs and choose sources

Timers, messages and the number of threads are not modelled.
-/

namespace NW.Bench

/-- `build_degrees(graph)` for the adjacency lists `adj`: bench/common.hpp:109-120.  Every edge `(i, j)` leads to one atomic increment of entry `j`; `sched` is the order in which they are executed. -/
def buildDegrees (sched : List Nat → List Nat) (adj : List (List Nat)) : Res (List Nat) := vincrAll (List.replicate adj.length 0) (sched adj.flatten)

/-- The inner loop of `build_random_sources`: bench/common.hpp:132-133.  The state is the number of values drawn; `draw k` is value number `k` of the random number generator.  The result is the number of
the value that is kept. -/
def drawBody (degrees : List Nat) (draw : Nat → Nat) (k : Nat) : Res (Nat ⊕ Nat) := do
  let d ← vget degrees (draw k)
  if d = 0 then return .inl (k + 1) else return .inr k

/-- One round of the outer loop: the sources found and the number of values drawn: bench/common.hpp:131-134. -/
def drawSource (degrees : List Nat) (draw : Nat → Nat) (s : List Nat × Nat) : Run (List Nat × Nat) := do
  let k ← Run.loop (drawBody degrees draw) s.2
  return (s.1 ++ [draw k], k + 1)

/-- `build_random_sources(graph, n, seed)`: bench/common.hpp:122-136.  The sources are assigned to a vector of length `n` from left to right; here they are appended to a list. -/
def buildRandomSources (sched : List Nat → List Nat) (draw : Nat → Nat) (adj : List (List Nat)) (n : Nat) : Run (List Nat) := do
  let degrees ← buildDegrees sched adj
  let r ← (List.range n).foldlM (fun s _ => drawSource degrees draw s) ([], 0)
  return r.1

/-- The range of `std::uniform_int_distribution<Id>(0, num_vertices(graph))`, both ends included: bench/common.hpp:129. -/
def InDistribution (adj : List (List Nat)) (draw : Nat → Nat) : Prop := ∀ k, 0 ≤ draw k ∧ draw k ≤ adj.length

/-- `in >> type`: bench/common.hpp:86. -/
def firstWord (cs : List Char) : List Char := (cs.dropWhile MM.isSpace).takeWhile (fun c => !MM.isSpace c)

/-- The bytes of a file as characters. -/
def chars (bytes : List UInt8) : List Char := bytes.map fun b => Char.ofNat b.toNat

/-- `load_graph<Directedness, Attributes...>(file)`: bench/common.hpp:82-101.  `k` is the size of a vertex id, `fs` are the attributes, `mm` is the overload of `read_mm` chosen by the template
arguments; the result is the memory image of the list.  Other files end the program. -/
def loadGraph {α : Type} (k : Nat) (fs : List (Bin.Field α)) (mm : List Char → Res (EdgeList α)) (bytes : List UInt8) : Res Bin.EdgeListMem := do
  if firstWord (chars bytes) = "NW".toList then
    let r ← Bin.readEdgeList (Bin.imageOf k fs (EdgeList.new 0)) bytes
    return r.1
  else if firstWord (chars bytes) = "%%MatrixMarket".toList then
    let el ← mm (chars bytes)
    return Bin.imageOf k fs el
  else .error .terminated

/-- `load_sources_from_file(graph, file, n)`: bench/common.hpp:142-151. -/
def loadSources (w : Nat) (text : List Char) (n : Nat) : Res (List Nat) := do
  let sources ← MM.readVector w text
  if n ≠ 0 ∧ sources.length ≠ n then .error .terminated else return sources

end NW.Bench
