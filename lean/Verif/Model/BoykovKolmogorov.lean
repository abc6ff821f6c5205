import Verif.RunLoop
import Verif.Model.BackEdge
import Mathlib.Algebra.Order.Ring.Defs

/-!
# Model of algorithms/boykov_kolmogorov.hpp

The graph is a `back_edge_range` (bk_test.cpp:51) whose edges have one property, the residual capacity; pointers into edges are locations of it.  Numbers are exact: `R` is any
ordered ring, and `tol` is a parameter.  `null_vertex_v` is `none`; `source` and `terminal` are the numbers `n` and `n + 1` of the code.  Simplification: 64-bit numbers are natural
numbers.
-/

namespace NW.Bk
open Spec BackEdge

variable {R : Type} [CommRing R] [LinearOrder R] [IsStrictOrderedRing R]

/-- `INFINITE_D`: boykov_kolmogorov.hpp:29. -/
def infiniteD : Nat := 100000000

/-- The variables of `bk_maxflow`: boykov_kolmogorov.hpp:49-68.  In `tid`, `true` is `tree_mem::term`; a null pointer in `trees` is `none`. -/
structure St (R : Type) where
  net : BE R
  cap : List R
  mf : R
  gtime : Nat
  active : List Nat
  orphans : List Nat
  tid : List Bool
  preds : List (Option Nat)
  trees : List (Option (Loc × Loc))
  ts : List Nat
  dist : List Nat

/-- `terminal` or `source`: boykov_kolmogorov.hpp:50-51. -/
def St.target (st : St R) (t : Bool) : Nat := if t = true then st.net.g.length + 1 else st.net.g.length

/-- The body of the first loop: boykov_kolmogorov.hpp:71-84. -/
def initVertex (st : St R) (i : Nat) : Res (St R) := do
  let c ← vget st.cap i
  if c > 0 then
    let tid ← vset st.tid i false
    let preds ← vset st.preds i (some (st.target false))
    let dist ← vset st.dist i 1
    let ts ← vset st.ts i 0
    return { st with tid := tid, preds := preds, dist := dist, ts := ts, active := st.active ++ [i] }
  else if c < 0 then
    let tid ← vset st.tid i true
    let preds ← vset st.preds i (some (st.target true))
    let dist ← vset st.dist i 1
    let ts ← vset st.ts i 0
    return { st with mf := st.mf + c, tid := tid, preds := preds, dist := dist, ts := ts, active := st.active ++ [i] }
  else return st

/-- The start: boykov_kolmogorov.hpp:49-85. -/
def init (net : BE R) (cap : List R) : Res (St R) :=
  (List.range net.g.length).foldlM initVertex
    { net := net, cap := cap, mf := 0, gtime := 0, active := [], orphans := [], tid := List.replicate net.g.length false, preds := List.replicate net.g.length none,
      trees := List.replicate net.g.length none, ts := List.replicate net.g.length 0, dist := List.replicate net.g.length 0 }

/-- An edge with residual capacity leads from `p` to `q`; `none` if it joins the two trees: boykov_kolmogorov.hpp:131-153. -/
def reach (st : St R) (p q : Nat) (t : Bool) (rc brc : Loc) : Res (Option (St R)) := do
  let pq ← vget st.preds q
  match pq with
  | none =>
    let tid ← vset st.tid q t
    let preds ← vset st.preds q (some p)
    let trees ← vset st.trees q (some (rc, brc))
    let tp ← vget st.ts p
    let ts ← vset st.ts q tp
    let dp ← vget st.dist p
    let dist ← vset st.dist q (dp + 1)
    return some { st with tid := tid, preds := preds, trees := trees, active := st.active ++ [q], ts := ts, dist := dist }
  | some _ =>
    let tq ← vget st.tid q
    if tq ≠ t then return none
    else
      let sq ← vget st.ts q
      let sp ← vget st.ts p
      let dq ← vget st.dist q
      let dp ← vget st.dist p
      if sq ≤ sp ∧ dq > dp then
        let preds ← vset st.preds q (some p)
        let trees ← vset st.trees q (some (rc, brc))
        let ts ← vset st.ts q sp
        let dist ← vset st.dist q (dp + 1)
        return some { st with preds := preds, trees := trees, ts := ts, dist := dist }
      else return some st

/-- An edge that joins the trees: `residual_cap`, `back_residual_cap`, `connect_s`, `connect_t`. -/
abbrev Conn := Loc × Loc × Nat × Nat

/-- The loop over the edges of `p`: boykov_kolmogorov.hpp:102-154. -/
def growEdges (tol : R) (p : Nat) (t : Bool) : St R → List Loc → Res (St R × Option Conn)
  | st, [] => return (st, none)
  | st, l :: ls => do
    let e ← read st.net l
    if t = true then
      let (net, bl) ← getBack 0 st.net p e.1
      let b ← read net bl
      if b.2 ≤ tol then growEdges tol p t { st with net := net } ls
      else
        let r ← reach { st with net := net } p e.1 t bl l
        match r with
        | none => return ({ st with net := net }, some (bl, l, e.1, p))
        | some st => growEdges tol p t st ls
    else
      if e.2 ≤ tol then growEdges tol p t st ls
      else
        let (net, bl) ← getBack 0 st.net p e.1
        let r ← reach { st with net := net } p e.1 t l bl
        match r with
        | none => return ({ st with net := net }, some (l, bl, p, e.1))
        | some st => growEdges tol p t st ls

/-- A round of the growth: boykov_kolmogorov.hpp:91-161. -/
def growRound (tol : R) (st : St R) : Res (St R ⊕ (St R × Option Conn)) := do
  match st.active with
  | [] => return .inr (st, none)
  | p :: rest =>
    let pp ← vget st.preds p
    match pp with
    | none => return .inl { st with active := rest }
    | some _ =>
      let t ← vget st.tid p
      let ls ← inner st.net p
      let (st, c) ← growEdges tol p t st ls
      let st := { st with gtime := st.gtime + 1 }
      match c with
      | some c => return .inr (st, some c)
      | none =>
        match st.active with
        | [] => .error .emptyContainer
        | _ :: rest => return .inl { st with active := rest }

/-- The pointers stored for a vertex; using a null pointer is a fault. -/
def treeEdge (st : St R) (v : Nat) : Res (Loc × Loc) := do
  let e ← vget st.trees v
  match e with
  | some e => return e
  | none => .error .uninitialised

/-- A round of the search for the minimum in the terminal tree (`t`) or in the source tree; the state is `vtx` and `min_cap`: boykov_kolmogorov.hpp:170-186. -/
def minRound (st : St R) (t : Bool) (s : Nat × R) : Res ((Nat × R) ⊕ R) := do
  if s.1 = st.target t then return .inr s.2
  else
    let pv ← vget st.preds s.1
    let m ← if pv = some (st.target t) then do
        let c ← vget st.cap s.1
        pure (min s.2 (if t = true then -c else c))
      else do
        let e ← treeEdge st s.1
        let x ← read st.net e.1
        pure (min s.2 x.2)
    match pv with
    | some v => return .inl (v, m)
    | none => .error .outOfBounds

/-- `*rc -= m; *brc += m`: boykov_kolmogorov.hpp:189-190, 204-205, 223-224. -/
def shift (net : BE R) (rc brc : Loc) (m : R) : Res (BE R) := do
  let x ← read net rc
  let net ← write net rc (x.2 - m)
  let y ← read net brc
  write net brc (y.2 + m)

/-- A round of the update of the terminal tree (`t`) or of the source tree: boykov_kolmogorov.hpp:194-230. -/
def augRound (t : Bool) (m : R) (s : Nat × St R) : Res ((Nat × St R) ⊕ St R) := do
  let (v, st) := s
  if v = st.target t then return .inr st
  else
    let next ← vget st.preds v
    let st ← if next = some (st.target t) then do
        let c ← vget st.cap v
        let c' := if t = true then c + m else c - m
        let cap ← vset st.cap v c'
        if (if t = true then 0 ≤ c' else c' ≤ 0) then do
          let preds ← vset st.preds v none
          pure { st with cap := cap, preds := preds, orphans := st.orphans ++ [v] }
        else pure { st with cap := cap }
      else do
        let e ← treeEdge st v
        let net ← shift st.net e.1 e.2 m
        let x ← read net e.1
        if x.2 ≤ 0 then do
          let preds ← vset st.preds v none
          pure { st with net := net, preds := preds, orphans := st.orphans ++ [v] }
        else pure { st with net := net }
    match next with
    | some u => return .inl (u, st)
    | none => .error .outOfBounds

/-- A round of the search for the root; the state is `vtx`, `d` and the variables: boykov_kolmogorov.hpp:265-281. -/
def originRound (t : Bool) (s : Nat × Nat × St R) : Res ((Nat × Nat × St R) ⊕ (Nat × St R)) := do
  let (v, d, st) := s
  if v = st.target t then return .inr (d, st)
  else
    let sv ← vget st.ts v
    if sv = st.gtime then
      let dv ← vget st.dist v
      return .inr (d + dv, st)
    else
      let pv ← vget st.preds v
      if pv = some (st.target t) then
        let ts ← vset st.ts v st.gtime
        let dist ← vset st.dist v 1
        return .inr (d + 1, { st with ts := ts, dist := dist })
      else
        match pv with
        | none => return .inr (infiniteD, st)
        | some u => return .inl (u, d + 1, st)

/-- A round of the second walk, which stores the distances; `d--` on an unsigned number: boykov_kolmogorov.hpp:290-295. -/
def markRound (t : Bool) (s : Nat × Nat × St R) : Res ((Nat × Nat × St R) ⊕ St R) := do
  let (v, d, st) := s
  if v = st.target t then return .inr st
  else
    let sv ← vget st.ts v
    if sv = st.gtime then return .inr st
    else
      let ts ← vset st.ts v st.gtime
      let dist ← vset st.dist v d
      let pv ← vget st.preds v
      match pv with
      | some u => return .inl (u, if d = 0 then 2 ^ 64 - 1 else d - 1, { st with ts := ts, dist := dist })
      | none => .error .outOfBounds

/-- `min_pred`, `min_edge` and `d_min`. -/
abbrev Best := Option (Nat × Loc × Loc) × Nat

/-- A candidate with residual capacity for the new parent of an orphan: boykov_kolmogorov.hpp:265-296.  The second walk does not depend on what happens to `min_pred`. -/
def candidate (t : Bool) (q : Nat) (rc brc : Loc) (st : St R) (b : Best) : Run (St R × Best) := do
  let (d, st) ← Run.loop (originRound t) (q, 0, st)
  if d < infiniteD then do
    let st ← Run.loop (markRound t) (q, d, st)
    pure (st, if d < b.2 then (some (q, rc, brc), d) else b)
  else pure (st, b)

/-- One edge of the orphan `p`, up to the walks: `some` if the other end is a candidate: boykov_kolmogorov.hpp:245-263. -/
def eligible (tol : R) (p : Nat) (t : Bool) (st : St R) (l : Loc) : Res (St R × Option (Nat × Loc × Loc)) := do
  let e ← read st.net l
  let tq ← vget st.tid e.1
  let pq ← vget st.preds e.1
  if tq ≠ t ∨ pq = some p then return (st, none)
  else if t = true then
    if e.2 ≤ tol then return (st, none)
    else
      let (net, bl) ← getBack 0 st.net p e.1
      return ({ st with net := net }, some (e.1, l, bl))
  else
    let (net, bl) ← getBack 0 st.net p e.1
    let b ← read net bl
    if b.2 ≤ tol then return ({ st with net := net }, none)
    else return ({ st with net := net }, some (e.1, bl, l))

/-- One edge of the orphan `p`: boykov_kolmogorov.hpp:244-297. -/
def adoptEdge (tol : R) (p : Nat) (t : Bool) (a : St R × Best) (l : Loc) : Run (St R × Best) := do
  let (st, c) ← Run.lift (eligible tol p t a.1 l)
  match c with
  | none => pure (st, a.2)
  | some (q, rc, brc) => candidate t q rc brc st a.2

/-- The neighbour `q` of an orphan without a new parent becomes active, `x` being the capacity of the edge from `p`: boykov_kolmogorov.hpp:308-312. -/
def reactivate (tol : R) (p q : Nat) (x : R) (tq : Bool) (st : St R) : Res (St R) := do
  if tq = false ∧ x > tol then return { st with active := st.active ++ [q] }
  else if tq = true then do
    let (net, bl) ← getBack 0 st.net p q
    let b ← read net bl
    if b.2 > tol then return { st with net := net, active := st.active ++ [q] } else return { st with net := net }
  else return st

/-- One edge of an orphan without a new parent: boykov_kolmogorov.hpp:303-318. -/
def freeEdge (tol : R) (p : Nat) (t : Bool) (st : St R) (l : Loc) : Res (St R) := do
  let e ← read st.net l
  let tq ← vget st.tid e.1
  if tq ≠ t then return st
  else
    let st ← reactivate tol p e.1 e.2 tq st
    let pq ← vget st.preds e.1
    if pq = some p then
      let preds ← vset st.preds e.1 none
      return { st with orphans := st.orphans ++ [e.1], preds := preds }
    else return st

/-- The end of the adoption of `p`: boykov_kolmogorov.hpp:299-326. -/
def settle (tol : R) (p : Nat) (t : Bool) (st : St R) (ls : List Loc) (b : Best) : Res (St R) := do
  match b.1 with
  | none =>
    let ts ← vset st.ts p 0
    ls.foldlM (freeEdge tol p t) { st with ts := ts }
  | some (q, rc, brc) =>
    let preds ← vset st.preds p (some q)
    let trees ← vset st.trees p (some (rc, brc))
    let ts ← vset st.ts p st.gtime
    let dist ← vset st.dist p (b.2 + 1)
    return { st with preds := preds, trees := trees, ts := ts, dist := dist }

/-- A round of the adoption: boykov_kolmogorov.hpp:235-327. -/
def adoptRound (tol : R) (st : St R) : Run (St R ⊕ St R) := do
  match st.orphans with
  | [] => pure (.inr st)
  | p :: rest => do
    let st := { st with orphans := rest }
    let t ← Run.lift (vget st.tid p)
    let ls ← Run.lift (inner st.net p)
    let (st, b) ← ls.foldlM (adoptEdge tol p t) (st, (none, infiniteD))
    let st ← Run.lift (settle tol p t st ls b)
    pure (.inl st)

/-- A round of the outer loop: boykov_kolmogorov.hpp:88-329. -/
def round (tol : R) (st : St R) : Run (St R ⊕ St R) := do
  let (st, c) ← Run.loop (growRound tol) st
  match c with
  | none => pure (.inr st)
  | some (rc, brc, cs, ct) => do
    let x ← Run.lift (read st.net rc)
    let m ← Run.loop (minRound st true) (ct, x.2)
    let m ← Run.loop (minRound st false) (cs, m)
    let net ← Run.lift (shift st.net rc brc m)
    let st := { st with mf := st.mf + m, net := net }
    let st ← Run.loop (augRound true m) (ct, st)
    let st ← Run.loop (augRound false m) (cs, st)
    let st ← Run.loopR (adoptRound tol) st
    pure (.inl st)

/-- The last loop: boykov_kolmogorov.hpp:336-340. -/
def finish (st : St R) : List Bool := List.zipWith (fun (p : Option Nat) t => if p = none then true else t) st.preds st.tid

/-- `bk_maxflow(A, cap)`: boykov_kolmogorov.hpp:42-342.  The result is the number and the trees that are returned, the graph and `cap` at the end. -/
def bkMaxflow (tol : R) (net : BE R) (cap : List R) : Run (R × List Bool × BE R × List R) := do
  let st ← Run.lift (init net cap)
  let st ← Run.loopR (round tol) st
  pure (st.mf, finish st, st.net, st.cap)

end NW.Bk
