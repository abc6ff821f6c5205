import Verif.Spec.Walk
import Verif.Concur
import Verif.Run

/-!
# Model of the example apb/dijkstra.cpp

The line numbers are those of apb/dijkstra.cpp.  The graph is given by its rows, in which an entry is a target and a weight.  The weights are read as `double`s; in the model they are integers of any sign (the
multiples of some unit) and sums are exact.  `inf` stands for `std::numeric_limits<weight_type>::max()`.  The times and the options are not modelled.
-/

namespace NW.ApbDijkstra
open Spec

/-- `distance` and `Q`, which the trials of all variants share: 61-65.  The queue is the collection of its entries. -/
abbrev State := List Int × List (Nat × Int)

/-- The body of the innermost loop: 85-92, 121-128, 156-163, 191-198, 225-232, 260-267. -/
def relax (wt : Nat × Int → Int) (u : Nat) (st : State) (e : Nat × Int) : Res State := do
  let du ← vget st.1 u
  let dv ← vget st.1 e.1
  if du + wt e < dv then
    let dist ← vset st.1 e.1 (du + wt e)
    let d ← vget dist e.1
    return (dist, st.2 ++ [(e.1, d)])
  else return st

/-- `while (!Q.empty())`: 77-94, and the same lines of the other variants.  The model lets `top()` be any entry, which includes those with the least distance. -/
inductive Step (g : Rows Int) (wt : Nat × Int → Int) : State → Res (State ⊕ State) → Prop
  | done {dist : List Int} : Step g wt (dist, []) (.ok (.inr (dist, [])))
  | pop {dist : List Int} {q q' : List (Nat × Int)} {u : Nat} {d : Int} (h : q.Perm ((u, d) :: q')) :
      Step g wt (dist, q) (do
        let r ← vget g u
        let st ← r.foldlM (relax wt u) (dist, q')
        return .inl st)

/-- One trial: 70-94. -/
def trial (g : Rows Int) (wt : Nat × Int → Int) (inf : Int) (source : Nat) (st : State) : Run State := do
  let dist := List.replicate st.1.length inf
  let dist ← Run.lift (vset dist source 0)
  let d ← Run.lift (vget dist source)
  (Runs (Step g wt) (dist, st.2 ++ [(source, d)]) : Run State)

/-- All trials of one variant, with the distances that each of them leaves: 68-98. -/
def trials (g : Rows Int) (wt : Nat × Int → Int) (inf : Int) (ntrial source : Nat) (st : State) : Run (State × List (List Int)) :=
  (List.range ntrial).foldlM (fun a _ => do
    let st ← trial g wt inf source a.1
    return (st, a.2 ++ [st.1])) (st, [])

/-- The variants: their names, how they get the weight of an edge, and whether their time is printed: 67-99, 102-135, 138-170, 173-204 (no output), 207-239, 242-274. -/
def variants (fun_ : Nat × Int → Int) : List (String × (Nat × Int → Int) × Bool) :=
  [("Access stored properties directly", (·.2), true),
   ("Access stored properties through (inlinable) lambda function", fun_, true),
   ("access stored properties directly and neighbors through CPO", (·.2), true),
   ("access stored properties directly and target through CPO", (·.2), false),
   ("All indirections", fun_, true),
   ("No indirections (again)", (·.2), true)]

/-- `apb_adj(graph, ntrial, seed, fun)`: 50-275; the names in the output and the distances after each trial. -/
def apbAdj (g : Rows Int) (inf : Int) (ntrial seed : Nat) (fun_ : Nat × Int → Int) : Run (List String × List (List Int)) := do
  let a ← (variants fun_).foldlM (fun (a : State × List String × List (List Int)) x => do
    let (st, out) ← trials g x.2.1 inf ntrial seed a.1
    return (st, a.2.1 ++ (if x.2.2 then [x.1] else []), a.2.2 ++ out)) ((List.replicate g.length inf, []), [], [])
  return a.2

end NW.ApbDijkstra
