import Verif.Model.Brandes

/-!
# Model of the sequential versions in experimental/algorithms/betweenness_centrality.hpp

`approx_betweenness_brandes`, `bc2_v0` and `bc2_v1`.  Path counts have an unsigned type with `M` values, vertex identifiers one whose largest value is `inf`.  Scores are rational
numbers: rounding is not modelled.  A `std::multiset` is a list in the order of insertion (the order only matters for rounding).  The atomic variables and the concurrent vectors of
`bc2_v1` are used by one thread.
-/

namespace NW.BcExp
open Spec

variable {α : Type}

/-- The scores before normalisation: experimental betweenness_centrality.hpp:73-119.  The body of the loop over the sources (81-119) is that of `brandes_bc`
(algorithms/betweenness_centrality.hpp:153-191), with the same simplification of the stack and the queue. -/
def approxScores (M : Nat) (g : Rows α) (sources : List Nat) : Run (List ℚ) := sources.foldlM (Brandes.source M g) (List.replicate g.length 0)

/-- `approx_betweenness_brandes(A, sources)`: experimental betweenness_centrality.hpp:69-124. -/
def approxBrandes (M : Nat) (g : Rows α) (sources : List Nat) : Run (List (Option ℚ)) := do
  let c ← approxScores M g sources
  Run.lift (Brandes.normalise c)

/-- How the two versions differ: `S[phase + 1].push_front` (line 1261) or `push_back` (1330), and whether phase 0 is visited on the way back (`phase-- > 0`, 1279) or not
(`--phase > 0`, 1346). -/
structure Version where
  front : Bool
  root : Bool

def v0 : Version := ⟨true, true⟩
def v1 : Version := ⟨false, false⟩

/-- `depths`, `path_counts`, `P`, `S`, `phase`, `count`: experimental betweenness_centrality.hpp:1240-1249, 1307-1317. -/
structure St where
  depths : List Nat
  pc : List Nat
  P : List (List Nat)
  S : List (List Nat)
  phase : Nat
  count : Nat

/-- experimental betweenness_centrality.hpp:1260-1264, 1328-1332 -/
def discover (ver : Version) (inf v w : Nat) (st : St) : Res St := do
  let dw ← vget st.depths w
  if dw = inf then
    let l ← vget st.S (st.phase + 1)
    let S ← vset st.S (st.phase + 1) (if ver.front then w :: l else l ++ [w])
    let dv ← vget st.depths v
    let d ← vset st.depths w ((dv + 1) % (inf + 1))
    return { st with S := S, depths := d, count := st.count + 1 }
  else return st

/-- experimental betweenness_centrality.hpp:1266-1269, 1333-1336 -/
def record (M inf v w : Nat) (st : St) : Res St := do
  let dw ← vget st.depths w
  let dv ← vget st.depths v
  if dw = (dv + 1) % (inf + 1) then
    let a ← vget st.pc w
    let b ← vget st.pc v
    let pc ← vset st.pc w ((a + b) % M)
    let l ← vget st.P w
    let P ← vset st.P w (l ++ [v])
    return { st with pc := pc, P := P }
  else return st

/-- experimental betweenness_centrality.hpp:1257-1270, 1325-1337 -/
def edge (ver : Version) (M inf v : Nat) (st : St) (e : Nat × α) : Res St := do
  let st ← discover ver inf v e.1 st
  record M inf v e.1 st

/-- The body of the loop over `S[phase]`: experimental betweenness_centrality.hpp:1256-1271, 1324-1338. -/
def visit (ver : Version) (M inf : Nat) (g : Rows α) (st : St) (v : Nat) : Res St := do
  let row ← vget g v
  row.foldlM (edge ver M inf v) st

/-- The loop over the phases: experimental betweenness_centrality.hpp:1253-1275, 1321-1342.  The pushes go to another element of `S` than the one that is iterated over. -/
def body (ver : Version) (M inf : Nat) (g : Rows α) (st : St) : Res (St ⊕ St) :=
  if 0 < st.count then do
    let l ← vget st.S st.phase
    let st' ← l.foldlM (visit ver M inf g) { st with count := 0 }
    return .inl { st' with phase := st'.phase + 1, S := st'.S ++ [[]] }
  else return .inr st

/-- experimental betweenness_centrality.hpp:1240-1251, 1307-1319 -/
def init (M inf n s : Nat) : Res St := do
  let pc ← vset (List.replicate n 0) s (1 % M)
  let d ← vset (List.replicate n inf) s 0
  return { depths := d, pc := pc, P := List.replicate n [], S := [[s], []], phase := 0, count := 1 }

/-- One vertex on the way back, on `delta` and `bc`: experimental betweenness_centrality.hpp:1280-1285, 1347-1352.  The statement in line 1282 is that of line 185 of
algorithms/betweenness_centrality.hpp. -/
def backVertex (st : St) (x : List ℚ × List ℚ) (w : Nat) : Res (List ℚ × List ℚ) := do
  let ps ← vget st.P w
  let delta ← ps.foldlM (Brandes.backPred st.pc w) x.1
  let dw ← vget delta w
  let c ← vget x.2 w
  let bc ← vset x.2 w (c + dw)
  return (delta, bc)

/-- The phases visited on the way back: line 1279, 1346.  There has been at least one phase. -/
def backPhases (ver : Version) (phase : Nat) : List Nat :=
  if ver.root then (List.range phase).reverse else ((List.range (phase - 1)).map (· + 1)).reverse

/-- The way back: experimental betweenness_centrality.hpp:1277-1286, 1344-1353. -/
def back (ver : Version) (n : Nat) (st : St) (bc : List ℚ) : Res (List ℚ) := do
  let x ← (backPhases ver st.phase).foldlM (fun x i => do
    let l ← vget st.S i
    l.foldlM (backVertex st) x) (List.replicate n 0, bc)
  return x.2

/-- One source: experimental betweenness_centrality.hpp:1238-1287, 1305-1354. -/
def source (ver : Version) (M inf : Nat) (g : Rows α) (bc : List ℚ) (s : Nat) : Run (List ℚ) := do
  let st ← Run.lift (init M inf g.length s)
  let st ← Run.loop (body ver M inf g) st
  Run.lift (back ver g.length st bc)

/-- The scores before normalisation: experimental betweenness_centrality.hpp:1235-1287, 1301-1354. -/
def scores (ver : Version) (M inf : Nat) (g : Rows α) (sources : List Nat) : Run (List ℚ) := sources.foldlM (source ver M inf g) (List.replicate g.length 0)

/-- `bc2_v0(graph, sources, normalize)` and `bc2_v1(graph, sources, normalize)`: experimental betweenness_centrality.hpp:1231-1295, 1297-1363.  The normalisation (1288-1292,
1356-1360) is that of `brandes_bc`. -/
def bc2 (ver : Version) (M inf : Nat) (g : Rows α) (sources : List Nat) (norm : Bool) : Run (List (Option ℚ)) := do
  let c ← scores ver M inf g sources
  if norm then Run.lift (Brandes.normalise c) else return c.map some

end NW.BcExp
