import Verif.Iter
import Verif.RunLoop
import Verif.Spec.Walk

/-!
# Model: bfs_edge_range2 with dijkstra_er, bfs_edge_range3, bottomup_bfs_range

adaptors/bfs_edge_range.hpp, adaptors/bfs_range.hpp and algorithms/dijkstra.hpp.  A graph is its list of rows.
-/

namespace NW.BfsEdges
open Spec

variable {α : Type}

/-- `three_colors`: bfs_edge_range.hpp:31. -/
inductive Color where
  | black | white | grey
  deriving DecidableEq

/-! ## bfs_edge_range3 -/

/-- The members of a `bfs_edge_range3`: bfs_edge_range.hpp:390-394.  `q0` and `q1` are `Q_[0]` and `Q_[1]`, front first. -/
structure Range3 where
  colors : List Color
  q0 : List Nat
  q1 : List Nat

/-- Pushing the white neighbours: bfs_edge_range.hpp:306-312 and 341-347. -/
def pushWhite (colors : List Color) (q1 : List Nat) : List (Nat × α) → Res (List Color × List Nat)
  | [] => return (colors, q1)
  | x :: xs => do
    let c ← vget colors x.1
    if c = .white then do
      let colors' ← vset colors x.1 .grey
      pushWhite colors' (q1 ++ [x.1]) xs
    else pushWhite colors q1 xs

/-- The constructor: bfs_edge_range.hpp:302-313. -/
def init3 (g : Rows α) (seed : Nat) : Res Range3 := do
  let colors ← vset (List.replicate g.length .white) seed .grey
  let row ← vget g seed
  let p ← pushWhite colors [] row
  return { colors := p.1, q0 := [seed], q1 := p.2 }

/-- `while (Q[1].empty())`, entered with the child queue empty: bfs_edge_range.hpp:335-353.  Each round without a white neighbour takes one
element off `Q_[0]`; the first one with a white neighbour ends the loop. -/
def refill (g : Rows α) (colors : List Color) : List Nat → Res Range3
  | [] => return { colors := colors, q0 := [], q1 := [] }
  | v :: q0 => do
    let row ← vget g v
    let p ← pushWhite colors [] row
    if p.2 = [] then do
      let colors' ← vset p.1 v .black
      refill g colors' q0
    else return { colors := p.1, q0 := v :: q0, q1 := p.2 }

/-- `operator++`: bfs_edge_range.hpp:324-361. -/
def next3 (g : Rows α) (st : Range3) : Res Range3 :=
  match st.q1 with
  | u :: q1 => do
    let colors ← vset st.colors u .black
    match q1 with
    | [] => refill g colors (st.q0 ++ [u])
    | _ :: _ => return { colors := colors, q0 := st.q0 ++ [u], q1 := q1 }
  | [] => match st.q0 with
    | [] => .error .emptyContainer
    | v :: q0 => do
      let colors ← vset st.colors v .black
      return { colors := colors, q0 := q0, q1 := [] }

/-- `operator*`: bfs_edge_range.hpp:363-370. -/
def deref3 (st : Range3) : Res (Nat × Nat) :=
  match st.q0, st.q1 with
  | [], _ => .error .emptyContainer
  | v :: _, u :: _ => return (v, u)
  | v :: _, [] => return (v, v)

/-- The iterator and its end: bfs_edge_range.hpp:320-387, with `empty`, 318. -/
def iter3 (g : Rows α) : Iter Range3 (Nat × Nat) where
  atEnd st := return st.q0.isEmpty
  deref := deref3
  next := next3 g

/-- `for (auto&& [u, v] : bfs_edge_range3(g, seed))` visits `o`. -/
def Visits3 (g : Rows α) (seed : Nat) (o : Res (List (Nat × Nat))) : Prop :=
  match init3 g seed with
  | .ok st => (iter3 g).Visits st o
  | .error f => o = .error f

/-! ## bfs_edge_range2 and dijkstra_er -/

/-- `std::priority_queue` with `std::greater` on pairs: the front is the smallest pair, vertex first.  The queue is the list of its entries;
`front` is `top()`: undefined for an empty queue. -/
def qTop : List (Nat × Nat) → Res (Nat × Nat)
  | [] => .error .emptyContainer
  | x :: xs => return xs.foldl (fun a b => if b.1 < a.1 ∨ (b.1 = a.1 ∧ b.2 < a.2) then b else a) x

/-- `pop()`. -/
def qPop (q : List (Nat × Nat)) : Res (List (Nat × Nat)) := do
  let t ← qTop q
  return q.erase t

/-- The iterator with the range it belongs to: bfs_edge_range.hpp:229-232 and 291-293.  `rest` is `[u_begin, u_end)`, `G[v_]` from the current
neighbour on. -/
structure Range2 where
  colors : List Color
  queue : List (Nat × Nat)
  v : Nat
  rest : List (Nat × Nat)

/-- Skipping neighbours that are not white: bfs_edge_range.hpp:250-252 and 266-268. -/
def skip2 (colors : List Color) : List (Nat × Nat) → Res (List (Nat × Nat))
  | [] => return []
  | x :: xs => do
    let c ← vget colors x.1
    if c = .white then return x :: xs else skip2 colors xs

/-- One round of `while (colors[get<0>(Q.top())] == black && !Q.empty()) Q.pop();`: bfs_edge_range.hpp:257-258.  The front is read before
the queue is known to have one. -/
def popBody (colors : List Color) (q : List (Nat × Nat)) : Res (List (Nat × Nat) ⊕ List (Nat × Nat)) := do
  let t ← qTop q
  let c ← vget colors t.1
  if c = .black ∧ q ≠ [] then do
    let q' ← qPop q
    return .inl q'
  else return .inr q

/-- One round of `while (u_begin == u_end)`: bfs_edge_range.hpp:254-269. -/
def advanceBody (g : Rows Nat) (st : Range2) : Run (Range2 ⊕ Range2) := do
  if st.rest = [] then do
    let colors ← Run.lift (vset st.colors st.v .black)
    let q ← Run.loop (popBody colors) st.queue
    if q = [] then return .inr { st with colors := colors, queue := [] }
    else do
      let t ← Run.lift (qTop q)
      let row ← Run.lift (vget g t.1)
      let rest ← Run.lift (skip2 colors row)
      return .inl { colors := colors, queue := q, v := t.1, rest := rest }
  else return .inr st

/-- `operator++`: bfs_edge_range.hpp:242-272. -/
def next2 (g : Rows Nat) (st : Range2) : Run Range2 :=
  match st.rest with
  | [] => Run.lift (.error .outOfBounds)
  | x :: xs => do
    let colors ← Run.lift (vset st.colors x.1 .grey)
    let rest ← Run.lift (skip2 colors xs)
    Run.loopR (advanceBody g) { colors := colors, queue := st.queue ++ [(x.1, 0xffffffffffffffff)], v := st.v, rest := rest }

/-- One round of the loop of `dijkstra_er`: dijkstra.hpp:57-62, with the test `it != end`, `*it` (bfs_edge_range.hpp:274) and `++it`.  Distances are
numbers without overflow. -/
def dijkstraBody (g : Rows Nat) (p : Range2 × List Nat) : Run ((Range2 × List Nat) ⊕ List Nat) :=
  let (st, distance) := p
  if st.queue = [] then return .inr distance
  else match st.rest with
    | [] => Run.lift (.error .outOfBounds)
    | x :: _ => do
      let du ← Run.lift (vget distance st.v)
      let dv ← Run.lift (vget distance x.1)
      if du + x.2 < dv then do
        let distance' ← Run.lift (vset distance x.1 (du + x.2))
        let st' ← next2 g { st with queue := st.queue ++ [(x.1, du + x.2)] }
        return .inl (st', distance')
      else do
        let st' ← next2 g st
        return .inl (st', distance)

/-- `dijkstra_er`: dijkstra.hpp:43-65.  The range is built without a seed, so with the default `{0, 0}` (bfs_edge_range.hpp:216-220). -/
def dijkstraEr (g : Rows Nat) (source : Nat) : Run (List Nat) := do
  Run.lift (check (source < g.length))
  let distance ← Run.lift (vset (List.replicate g.length 0xDEADBEEF) source 0)
  let colors ← Run.lift (vset (List.replicate g.length .white) 0 .grey)
  let row ← Run.lift (vget g 0)
  Run.loopR (dijkstraBody g) ({ colors := colors, queue := [(0, 0)], v := 0, rest := row }, distance)

/-! ## bottomup_bfs_range -/

/-- `status`: bfs_range.hpp:27. -/
inductive Status where
  | ready | waiting | processed
  deriving DecidableEq

/-- The members: bfs_range.hpp:192-196. -/
structure BottomUp where
  colors : List Status
  v : Nat
  parent : Nat
  n : Nat

/-- The first processed neighbour: bfs_range.hpp:211-216. -/
def firstProcessed (colors : List Status) : List (Nat × α) → Res (Option Nat)
  | [] => return none
  | x :: xs => do
    let c ← vget colors x.1
    if c = .processed then return some x.1 else firstProcessed colors xs

/-- `advance`: bfs_range.hpp:198-226.  The remainder by `graph_.size()` is only taken after an element of `colors_`, of the same size, has been written. -/
def buNext (g : Rows α) (st : BottomUp) : Res BottomUp := do
  let colors ← vset st.colors st.v .processed
  let v := (st.v + 1) % g.length
  let colors ← vset colors v .waiting
  let row ← vget g v
  if row.isEmpty then return { colors := colors, v := v, parent := v, n := st.n + 1 }
  else do
    let o ← firstProcessed colors row
    return { colors := colors, v := v, parent := o.getD st.parent, n := st.n + 1 }

/-- The constructor: bfs_range.hpp:232-240. -/
def buInit (g : Rows α) (seed : Nat) : Res BottomUp := do
  let colors ← vset (List.replicate g.length .ready) seed .waiting
  let row ← vget g seed
  match row with
  | [] => return { colors := colors, v := seed, parent := seed, n := 0 }
  | x :: _ => return { colors := colors, v := seed, parent := x.1, n := 0 }

/-- The iterator and its end: bfs_range.hpp:228 and 246-267. -/
def buIter (g : Rows α) : Iter BottomUp (Nat × Nat) where
  atEnd st := return st.n == g.length
  deref st := return (st.v, st.parent)
  next := buNext g

/-- `for (auto&& [v, parent] : bottomup_bfs_range(g, seed))` visits `o`. -/
def BuVisits (g : Rows α) (seed : Nat) (o : Res (List (Nat × Nat))) : Prop :=
  match buInit g seed with
  | .ok st => (buIter g).Visits st o
  | .error f => o = .error f

end NW.BfsEdges
