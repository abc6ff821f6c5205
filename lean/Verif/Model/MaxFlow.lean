import Verif.Run
import Verif.Model.BackEdge
import Mathlib.Algebra.Order.Ring.Defs

/-!
# Model of adaptors/filtered_bfs_range.hpp and algorithms/max_flow.hpp

Numbers are exact: `R` is any ordered ring.  The properties of an edge are its capacity and its flow.  The graph is a `back_edge_range`; pointers into edges are
locations of it.  Simplification: 64-bit numbers are natural numbers.
-/

namespace NW.MaxFlow
open Spec BackEdge

variable {R : Type} [CommRing R] [LinearOrder R] [IsStrictOrderedRing R]

/-- `three_colors`: filtered_bfs_range.hpp:29. -/
inductive Color where
  | black | white | grey
  deriving DecidableEq

/-- The edges of a network: capacity and flow. -/
abbrev Net (R : Type) := BE (R × R)

/-- The properties of `edge extra_edge`. -/
def zero : R × R := (0, 0)

/-- `mf_filter(v, edge)`: max_flow.hpp:70-73.  `get_back_edge` may change the range. -/
def filter (s : Net R) (v : Nat) (l : Loc) : Res (Net R × Bool) := do
  let e ← read s l
  let (s, bl) ← getBack zero s v e.1
  let b ← read s bl
  return (s, decide (e.2.2 ≥ e.2.1 + b.2.2))

/-- The range (`Q_`, `colors_`, `unreachable`) and its iterator (`v_` and the edges from `u_begin` on): filtered_bfs_range.hpp:51, 127-132, 141-145. -/
structure Fb where
  q : List Nat
  col : List Color
  v : Nat
  rest : List Loc
  unreach : Bool

/-- Skips edges to coloured vertices and filtered edges: filtered_bfs_range.hpp:85-89 and 104-108. -/
def skip (col : List Color) (v : Nat) : Net R → List Loc → Res (Net R × List Loc)
  | s, [] => return (s, [])
  | s, l :: ls => do
    let e ← read s l
    let c ← vget col e.1
    if c = .white then
      let (s, b) ← filter s v l
      if b = false then return (s, l :: ls) else skip col v s ls
    else skip col v s ls

/-- The loop of the constructor of the iterator, which reads an edge before it looks for the end: filtered_bfs_range.hpp:60-66. -/
def skip0 (v : Nat) : Net R → List Loc → Res (Net R × List Loc × Bool)
  | _, [] => .error .outOfBounds
  | s, l :: ls => do
    let (s, b) ← filter s v l
    if b = true then
      match ls with
      | [] => return (s, [], true)
      | l' :: ls => skip0 v s (l' :: ls)
    else return (s, l :: ls, false)

/-- Leaves the vertex at the front of the queue and looks for the next one with an edge to follow: filtered_bfs_range.hpp:91-109. -/
def nextVertex : Net R → List Color → Nat → List Nat → Res (Net R × Fb)
  | _, _, _, [] => .error .emptyContainer
  | s, col, v, _ :: q => do
    let col ← vset col v .black
    match q with
    | [] => return (s, { q := [], col := col, v := v, rest := [], unreach := true })
    | v' :: q' => do
      let c ← vget col v'
      check (decide (c = .grey))
      let ls ← inner s v'
      let (s, rest) ← skip col v' s ls
      match rest with
      | [] => nextVertex s col v' (v' :: q')
      | l :: rest => return (s, { q := v' :: q', col := col, v := v', rest := l :: rest, unreach := false })

/-- `++ite`: filtered_bfs_range.hpp:72-111. -/
def advance (sink : Nat) (s : Net R) (f : Fb) : Res (Net R × Fb) := do
  match f.rest with
  | [] => .error .outOfBounds
  | l :: ls =>
    let e ← read s l
    let q := f.q ++ [e.1]
    let col ← vset f.col e.1 .grey
    if sink = e.1 then
      let col ← vset col e.1 .grey
      return (s, { f with q := q, col := col })
    else
      let (s, rest) ← skip col f.v s ls
      match rest with
      | [] => nextVertex s col f.v q
      | l :: rest => return (s, { f with q := q, col := col, rest := l :: rest })

/-- The constructors of the range and of its iterator: filtered_bfs_range.hpp:37-43, 56-67. -/
def fbStart (s : Net R) (source : Nat) : Res (Net R × Fb) := do
  let col ← vset (List.replicate s.g.length .white) source .grey
  let ls ← inner s source
  let (s, rest, unreach) ← skip0 source s ls
  return (s, { q := [source], col := col, v := source, rest := rest, unreach := unreach })

/-- `tree_edge`; the pointers of an entry that has not been assigned are null: max_flow.hpp:58-66. -/
structure TreeEdge where
  loc : Loc
  back : Loc
  pred : Nat

/-- One round of the search: max_flow.hpp:77-86.  `found` is `colors[sink] == grey` (filtered_bfs_range.hpp:49-50). -/
def searchRound (sink : Nat) (st : Net R × Fb × List (Option TreeEdge)) :
    Res ((Net R × Fb × List (Option TreeEdge)) ⊕ (Net R × Fb × List (Option TreeEdge))) := do
  let (s, f, tree) := st
  let c ← vget f.col sink
  if c = .grey ∨ f.unreach = true then return .inr (s, f, tree)
  else
    match f.rest with
    | [] => .error .outOfBounds
    | l :: _ =>
      let e ← read s l
      let (s, bl) ← getBack zero s f.v e.1
      let tree ← vset tree e.1 (some { loc := l, back := bl, pred := f.v })
      let (s, f) ← advance sink s f
      return .inl (s, f, tree)

/-- The entry of the search tree for a vertex on the path; using a null pointer is a fault. -/
def entry (tree : List (Option TreeEdge)) (v : Nat) : Res TreeEdge := do
  let t ← vget tree v
  match t with
  | some t => return t
  | none => .error .uninitialised

/-- The first loop over `reverse_path(search_tree, sink, source)`; the state is the iterator, the flag `done` (reverse.hpp:33, 45-52) and `min_cap`: max_flow.hpp:92-96. -/
def minRound (s : Net R) (tree : List (Option TreeEdge)) (source : Nat) (st : Nat × Bool × R) : Res ((Nat × Bool × R) ⊕ R) := do
  if st.2.1 = true then return .inr st.2.2
  else
    let t ← entry tree st.1
    let e ← read s t.loc
    let b ← read s t.back
    return .inl (t.pred, decide (t.pred = source), min st.2.2 (e.2.1 - e.2.2 + b.2.2))

/-- Sends `m` along the edge of a tree entry: max_flow.hpp:100-105. -/
def push (m : R) (s : Net R) (t : TreeEdge) : Res (Net R) := do
  let e ← read s t.loc
  let s ← write s t.loc (e.2.1, e.2.2 + m)
  let e ← read s t.loc
  let excess := e.2.2 - e.2.1
  if excess > 0 then
    let s ← write s t.loc (e.2.1, e.2.1)
    let b ← read s t.back
    write s t.back (b.2.1, b.2.2 - excess)
  else return s

/-- The second loop: max_flow.hpp:99-106. -/
def pushRound (tree : List (Option TreeEdge)) (source : Nat) (m : R) (st : Nat × Bool × Net R) : Res ((Nat × Bool × Net R) ⊕ Net R) := do
  if st.2.1 = true then return .inr st.2.2
  else
    let t ← entry tree st.1
    let s ← push m st.2.2 t
    return .inl (t.pred, decide (t.pred = source), s)

/-- The rounds that are left, the network, the search tree, `maxflow`; the result is `maxflow`, the network, and how often flow has been sent: max_flow.hpp:69-109.  The second
argument of the constructor of `filtered_bfs_edge_range` is the source, the third the sink. -/
def rounds (source sink : Nat) : Nat → Net R → List (Option TreeEdge) → R → Nat → Run (R × Net R × Nat)
  | 0, s, _, maxflow, k => pure (maxflow, s, k)
  | n + 1, s, tree, maxflow, k => do
    let (s, f) ← Run.lift (fbStart s source)
    let (s, f, tree) ← Run.loop (searchRound sink) (s, f, tree)
    let c ← Run.lift (vget f.col sink)
    if c ≠ .grey then pure (maxflow, s, k)
    else do
      let m ← Run.loop (minRound s tree source) (sink, false, 100000)
      let s ← Run.loop (pushRound tree source m) (sink, false, s)
      rounds source sink n s tree (maxflow + m) (k + 1)

/-- `max_flow(A, source, sink, max_iters)`: max_flow.hpp:57-110. -/
def maxFlow (s : Net R) (source sink maxIters : Nat) : Run (R × Net R × Nat) :=
  rounds source sink (maxIters + 1) s (List.replicate s.g.length none) 0 0

end NW.MaxFlow
