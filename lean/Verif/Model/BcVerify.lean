import Verif.Model.Brandes

/-!
# Model of `BCVerifier`: algorithms/betweenness_centrality.hpp:59-128

Path counts have an unsigned type with `M` values (for a floating-point counting type: exact as long as the counts are).  Scores are rational numbers without rounding, `none` is
"not a number".  Division by a path count of zero is a fault.  The tolerance `1e-6` is the rational number 1/1000000.  `abs` is taken to be the
absolute value for the score type.
-/

namespace NW.BcVerify
open Spec

variable {α : Type}

/-- The counting type `accum_t`, which also holds the difference that is compared with the tolerance (line 120). -/
inductive Accum where
  | floating
  | integral
  deriving DecidableEq

/-- `to_visit`, the position of `it` in it, `depths`, `path_counts`.  The reserved capacity is not modelled (there are at most `num_vertices(g)` pushes). -/
structure Fwd where
  visit : List Nat
  it : Nat
  d : List Int
  pc : List Nat

/-- betweenness_centrality.hpp:77-80 -/
def discover (u v : Nat) (st : Fwd) : Res Fwd := do
  let dv ← vget st.d v
  if dv = -1 then
    let du ← vget st.d u
    let d ← vset st.d v (du + 1)
    return { st with visit := st.visit ++ [v], d := d }
  else return st

/-- betweenness_centrality.hpp:81-83 -/
def record (M u v : Nat) (st : Fwd) : Res Fwd := do
  let dv ← vget st.d v
  let du ← vget st.d u
  if dv = du + 1 then
    let a ← vget st.pc v
    let b ← vget st.pc u
    let pc ← vset st.pc v ((a + b) % M)
    return { st with pc := pc }
  else return st

/-- betweenness_centrality.hpp:75-84 -/
def fwdEdge (M u : Nat) (st : Fwd) (e : Nat × α) : Res Fwd := do
  let st ← discover u e.1 st
  record M u e.1 st

/-- One round of the search: betweenness_centrality.hpp:73-85. -/
def fwdBody (M : Nat) (g : Rows α) (st : Fwd) : Res (Fwd ⊕ Fwd) :=
  match st.visit[st.it]? with
  | none => return .inr st
  | some u => do
    let row ← vget g u
    let st ← row.foldlM (fwdEdge M u) st
    return .inl { st with it := st.it + 1 }

/-- betweenness_centrality.hpp:66-72 -/
def fwdInit (M n s : Nat) : Res Fwd := do
  let d ← vset (List.replicate n (-1)) s 0
  let pc ← vset (List.replicate (n + 1) 0) s (1 % M)
  return { visit := [s], it := 0, d := d, pc := pc }

/-- One vertex put into its bucket of `verts_at_depth`: betweenness_centrality.hpp:89-94. -/
def bucket (d : List Int) (b : List (List Nat)) (i : Nat) : Res (List (List Nat)) := do
  let x ← vget d i
  if x ≠ -1 then
    let b := if (b.length : Int) ≤ x then b ++ List.replicate (x.toNat + 1 - b.length) [] else b
    let l ← vget b x.toNat
    vset b x.toNat (l ++ [i])
  else return b

/-- `path_counts[u] / path_counts[v]`, computed in `double`: line 103. -/
def quot (a b : Nat) : Res ℚ := if b = 0 then .error .divByZero else .ok ((a : ℚ) / (b : ℚ))

/-- The body of the loop over the neighbours on the way back: betweenness_centrality.hpp:101-104. -/
def backEdge (st : Fwd) (u : Nat) (delta : List ℚ) (e : Nat × α) : Res (List ℚ) := do
  let dv ← vget st.d e.1
  let du ← vget st.d u
  if dv = du + 1 then
    let a ← vget st.pc u
    let b ← vget st.pc e.1
    let q ← quot a b
    let y ← vget delta e.1
    let x ← vget delta u
    vset delta u (x + q * (1 + y))
  else return delta

/-- One vertex on the way back, on `deltas` and `scores`: betweenness_centrality.hpp:99-107. -/
def backVertex (g : Rows α) (st : Fwd) (x : List ℚ × List ℚ) (u : Nat) : Res (List ℚ × List ℚ) := do
  let row ← vget g u
  let delta ← row.foldlM (backEdge st u) x.1
  let du ← vget delta u
  let c ← vget x.2 u
  let sc ← vset x.2 u (c + du)
  return (delta, sc)

/-- One source: betweenness_centrality.hpp:65-109. -/
def source (M : Nat) (g : Rows α) (sc : List ℚ) (s : Nat) : Run (List ℚ) := do
  let st ← Run.lift (fwdInit M g.length s)
  let st ← Run.loop (fwdBody M g) st
  let b ← Run.lift ((List.range g.length).foldlM (bucket st.d) [])
  let x ← Run.lift (b.reverse.foldlM (fun x l => l.foldlM (backVertex g st) x) (List.replicate g.length 0, sc))
  return x.2

/-- `delta > 1e-6` for the entry `t` to be tested and the score `x`: betweenness_centrality.hpp:120-121.  A comparison with "not a number" is false; its conversion to an
integral type is undefined (modelled as the fault `assertFailed`). -/
def differs (a : Accum) (t x : Option ℚ) : Res Bool :=
  match t, x, a with
  | some t, some x, .floating => return decide (1 / 1000000 < |t - x|)
  | some t, some x, .integral => return decide ((1 / 1000000 : ℚ) < ((Rat.floor |t - x| : Int) : ℚ))
  | _, _, .floating => return false
  | _, _, .integral => .error .assertFailed

/-- The comparison: betweenness_centrality.hpp:117-127. -/
def compare (a : Accum) (test : List (Option ℚ)) (ok : Bool) (x : Nat × Option ℚ) : Res Bool := do
  let t ← vget test x.1
  if ← differs a t x.2 then return false else return ok

/-- The scores before normalisation: betweenness_centrality.hpp:64-109. -/
def scores (M : Nat) (g : Rows α) (sources : List Nat) : Run (List ℚ) := sources.foldlM (source M g) (List.replicate g.length 0)

/-- `BCVerifier(g, sources, test, normalize)`: betweenness_centrality.hpp:59-128.  The normalisation of lines 110-115 is that of `brandes_bc` (lines 192-195). -/
def verifier (a : Accum) (M : Nat) (g : Rows α) (sources : List Nat) (test : List (Option ℚ)) (norm : Bool) : Run Bool := do
  let c ← scores M g sources
  let sc ← Run.lift (if norm then Brandes.normalise c else .ok (c.map some))
  Run.lift ((sc.zipIdx.map fun x => (x.2, x.1)).foldlM (compare a test) true)

end NW.BcVerify
