import Verif.Model.Apb
import Verif.Run

/-!
# Model of the benchmark of execution policies, apb/exec.cpp

The line numbers are those of apb/exec.cpp.  Numbers are those of some type with `0`, `+` and `*` (the code uses `float`).  The timers and the options are not modelled.
-/

namespace NW.ApbExec
open Spec

variable {R : Type} [Zero R] [Add R] [Mul R]

/-- `std::execution::seq`, `std::execution::par`. -/
inductive Policy
  | seq
  | par

/-- The order in which `std::for_each(policy, …)` treats `n` positions.  Simplification: in parallel, the treatments of different positions are taken as a whole. -/
def order (p : Policy) (n : Nat) : Run (List Nat) :=
  Run.choose fun l => match p with
    | .seq => l = List.range n
    | .par => l.Perm (List.range n)

/-- A sum as `std::transform_reduce` may form it: in any order and with any brackets ([numerics.defns], GENERALIZED_SUM). -/
inductive GenSum : List R → R → Prop
  | one (a : R) : GenSum [a] a
  | split {xs ys zs : List R} {a b : R} (h : xs.Perm (ys ++ zs)) (hy : GenSum ys a) (hz : GenSum zs b) : GenSum xs (a + b)

/-- `x[idx[j]] * dat[j]`: 48, 68, 84, 102. -/
def product (x : List R) (e : Nat × R) : Res R := do
  let a ← vget x e.1
  return a * e.2

/-- `y[i] += r`. -/
def addTo (y : List R) (i : Nat) (r : R) : Res (List R) := do
  let a ← vget y i
  vset y i (a + r)

/-- The edges of `i` by the arrays: 41-43, 47, 61-63, 67. -/
def rawRow (g : Csr R) (i : Nat) : Res (List (Nat × R)) := do
  let b ← vget g.indices i
  let e ← vget g.indices (i + 1)
  (List.range' b (e - b)).mapM g.edgeAt

/-- `for (…) y[i] += x[…] * …`: 47-49, 83-85. -/
def addRow (x : List R) (k : Nat) (r : List (Nat × R)) (y : List R) : Res (List R) :=
  r.foldlM (fun y e => do
    let p ← product x e
    addTo y k p) y

/-- The first variant: 46-50. -/
def variant1 (p : Policy) (g : Csr R) (x : List R) (y : List R) : Run (List R) := do
  let is ← order p g.numVertices
  Run.lift (is.foldlM (fun y i => do
    let r ← rawRow g i
    addRow x i r y) y)

/-- `y[i] += std::transform_reduce(exec2, …, 0.0, std::plus<float>(), …)`: 67-68, 101-102. -/
def reduceRow (x : List R) (y : List R) (i : Nat) (row : Res (List (Nat × R))) : Run (List R) := do
  let r ← Run.lift row
  let ps ← Run.lift (r.mapM (product x))
  let s ← Run.choose (GenSum (0 :: ps))
  Run.lift (addTo y i s)

/-- The second variant: 66-69. -/
def variant2 (p : Policy) (g : Csr R) (x : List R) (y : List R) : Run (List R) := do
  let is ← order p g.numVertices
  is.foldlM (fun y i => reduceRow x y i (rawRow g i)) y

/-- The third variant, with a counter `k` that all treatments share: 81-87. -/
def variant3 (p : Policy) (g : Csr R) (x : List R) (y : List R) : Run (List R) := do
  let us ← order p g.N
  let a ← Run.lift (us.foldlM (fun (a : List R × Nat) u => do
    let r ← g.row u
    let y ← addRow x a.2 r a.1
    return (y, a.2 + 1)) (y, 0))
  return a.1

/-- The fourth variant: 100-103. -/
def variant4 (p : Policy) (g : Csr R) (x : List R) (y : List R) : Run (List R) := do
  let is ← order p g.numVertices
  is.foldlM (fun y i => reduceRow x y i (g.row i)) y

/-- `apb_adj(graph, ntrial, exec1, exec2)`: 28-109; all the results, one for each trial.  Every trial begins with `std::fill(y, 0)`. -/
def apbAdj (p : Policy) (g : Csr R) (x : List R) (ntrial : Nat) : Run (List (List R)) :=
  [variant1, variant2, variant3, variant4].foldlM (fun out v =>
    (List.range ntrial).foldlM (fun out _ => do
      let y ← v p g x (List.replicate g.numVertices 0)
      return out ++ [y]) out) []

end NW.ApbExec
