import Verif.Iter
import Verif.Spec.Walk

/-!
# Model of breadth-first search: algorithms/bfs.hpp (sequential), adaptors/bfs_range.hpp, adaptors/bfs_edge_range.hpp

The algorithms take any adjacency list; it is modelled by its rows (`Spec.Rows`), and `graph[u]` is checked access.  `inf` is
`std::numeric_limits<vertex_id_type>::max()`; arithmetic on vertex ids is modulo `inf + 1`.
-/

namespace NW.Bfs
open Spec

variable {α : Type}

/-! ## bfs -/

/-- The next frontier and the arrays. -/
structure St where
  q2 : List Nat
  level : List Nat
  parents : List Nat

/-- The body of the inner loop: bfs.hpp:127-132. -/
def bfsEdge (inf lvl u : Nat) (st : St) (x : Nat × α) : Res St := do
  let lv ← vget st.level x.1
  if lv = inf then
    let level ← vset st.level x.1 (lvl % (inf + 1))
    let parents ← vset st.parents x.1 u
    return { q2 := st.q2 ++ [x.1], level := level, parents := parents }
  else return st

/-- The body of the outer loop: bfs.hpp:125-134. -/
def bfsVertex (inf : Nat) (g : Rows α) (lvl : Nat) (st : St) (u : Nat) : Res St := do
  let r ← vget g u
  r.foldlM (bfsEdge inf lvl u) st

/-- One round of the while loop: bfs.hpp:123-138. -/
def bfsBody (inf : Nat) (g : Rows α) (s : List Nat × List Nat × List Nat × Nat) :
    Res ((List Nat × List Nat × List Nat × Nat) ⊕ List Nat) :=
  match s with
  | (q1, level, parents, lvl) =>
    if q1 = [] then return .inr parents
    else do
      let st ← q1.foldlM (bfsVertex inf g lvl) { q2 := [], level := level, parents := parents }
      return .inl (st.q2, st.level, st.parents, lvl + 1)

/-- The initialisation: bfs.hpp:114-121. -/
def bfsInit (inf : Nat) (g : Rows α) (root : Nat) : Res (List Nat × List Nat × List Nat × Nat) := do
  let level ← vset (List.replicate g.length inf) root 0
  let parents ← vset (List.replicate g.length inf) root root
  return ([root], level, parents, 1)

/-- `bfs(graph, root)` ends with `o`: bfs.hpp:110-140. -/
def Run (inf : Nat) (g : Rows α) (root : Nat) (o : Res (List Nat)) : Prop :=
  match bfsInit inf g root with
  | .ok s => Loop (bfsBody inf g) s o
  | .error f => o = .error f

/-! ## BFSVerifier -/

/-- The exploration of one neighbour: bfs.hpp:58-63. -/
def verEdge (inf u : Nat) (st : List Nat × List Nat) (x : Nat × α) : Res (List Nat × List Nat) := do
  let dv ← vget st.1 x.1
  if dv = inf then
    let du ← vget st.1 u
    let depth ← vset st.1 x.1 ((du + 1) % (inf + 1))
    return (depth, st.2 ++ [x.1])
  else return st

/-- The exploration loop over `to_visit`, which grows meanwhile: bfs.hpp:55-65.  The state is the position of `it`, the depths and
`to_visit`.  `to_visit` has reserved space for all vertices: pushing more would invalidate `it`. -/
def verBody (inf : Nat) (g : Rows α) (s : Nat × List Nat × List Nat) : Res ((Nat × List Nat × List Nat) ⊕ List Nat) :=
  match s with
  | (it, depth, toVisit) =>
    if it = toVisit.length then return .inr depth
    else do
      let u ← vget toVisit it
      let r ← vget g u
      let (depth', toVisit') ← r.foldlM (verEdge inf u) (depth, toVisit)
      check (toVisit'.length ≤ g.length)
      return .inl (it + 1, depth', toVisit')

/-- Looking for the parent among the in-neighbours: bfs.hpp:75-87; `none`: wrong depth. -/
def verIn (inf : Nat) (depth : List Nat) (du p : Nat) : List (Nat × α) → Res (Option Bool)
  | [] => return some false
  | x :: xs =>
    if x.1 = p then do
      let dv ← vget depth x.1
      if dv ≠ (du + inf) % (inf + 1) then return none else return some true
    else verIn inf depth du p xs

/-- The check of one vertex: bfs.hpp:67-95. -/
def verVertex (inf : Nat) (gt : Rows α) (source : Nat) (depth parent : List Nat) (u : Nat) : Res Bool := do
  let du ← vget depth u
  let pu ← vget parent u
  if du ≠ inf ∧ pu ≠ inf then
    if u = source then return decide (pu = u ∧ du = 0)
    else
      let r ← vget gt u
      let f ← verIn inf depth du pu r
      return decide (f = some true)
  else return decide (du = pu)

/-- The check of all vertices, stopping at the first failure: bfs.hpp:66-97. -/
def verAll (inf : Nat) (gt : Rows α) (source : Nat) (depth parent : List Nat) : List Nat → Res Bool
  | [] => return true
  | u :: us => do
    let ok ← verVertex inf gt source depth parent u
    if ok then verAll inf gt source depth parent us else return false

/-- `BFSVerifier(g, g_t, source, parent)` returns `o`: bfs.hpp:44-98. -/
def Verifier (inf : Nat) (g gt : Rows α) (source : Nat) (parent : List Nat) (o : Res Bool) : Prop :=
  match vset (List.replicate g.length inf) source 0 with
  | .error f => o = .error f
  | .ok depth0 => ∃ d, Loop (verBody inf g) (0, depth0, [source]) d ∧
    o = (d >>= fun depth => verAll inf gt source depth parent (List.range g.length))

/-! ## topdown_bfs_range -/

/-- The range: bfs_range.hpp:114-116. -/
structure Range where
  visited : List Bool
  queue : List Nat

/-- The body of `visit`: bfs_range.hpp:130-133. -/
def visitEdge (st : Range) (x : Nat × α) : Res Range := do
  let b ← vget st.visited x.1
  if b = false then
    let vis ← vset st.visited x.1 true
    return { visited := vis, queue := st.queue ++ [x.1] }
  else return st

/-- `visit(v)`: bfs_range.hpp:125-135. -/
def visit (g : Rows α) (st : Range) (v : Nat) : Res Range := do
  let r ← vget g v
  r.foldlM visitEdge st

/-- The constructor: bfs_range.hpp:119-122, 151-154. -/
def rangeInit (g : Rows α) (seed : Nat) : Res Range := do
  let vis ← vset (List.replicate g.length false) seed true
  visit g { visited := vis, queue := [seed] } seed

/-- `process()`: bfs_range.hpp:139-145. -/
def process (g : Rows α) (st : Range) : Res Range :=
  match st.queue with
  | [] => return st
  | v :: q => visit g { st with queue := q } v

/-- The iterator: bfs_range.hpp:160-180. -/
def rangeIter (g : Rows α) : Iter Range Nat where
  atEnd st := .ok (decide (st.queue = []))
  deref st := match st.queue with
    | [] => .error .emptyContainer
    | v :: _ => .ok v
  next := process g

/-- `for (auto&& v : topdown_bfs_range(g, seed))` visits `o`. -/
def RangeVisits (g : Rows α) (seed : Nat) (o : Res (List Nat)) : Prop :=
  match rangeInit g seed with
  | .ok st => (rangeIter g).Visits st o
  | .error f => o = .error f

/-! ## bfs_edge_range -/

/-- The range and its iterator (the iterator holds a reference to the range): visited marks and queue, bfs_edge_range.hpp:202-204, current vertex and what is left
of its neighbours, 144-145. -/
structure ERange (α : Type) where
  visited : List Bool
  queue : List Nat
  v : Nat
  rest : List (Nat × α)

/-- Skipping visited neighbours: bfs_edge_range.hpp:163-165 and 176-178. -/
def skipVisited (visited : List Bool) : List (Nat × α) → Res (List (Nat × α))
  | [] => return []
  | x :: xs => do
    let b ← vget visited x.1
    if b then skipVisited visited xs else return x :: xs

/-- `while (u_begin == u_end)`: bfs_edge_range.hpp:167-179. -/
def eAdvance (g : Rows α) (visited : List Bool) : List Nat → Nat → List (Nat × α) → Res (ERange α)
  | queue, v, x :: xs => return { visited := visited, queue := queue, v := v, rest := x :: xs }
  | [], _, [] => .error .emptyContainer
  | [_], v, [] => return { visited := visited, queue := [], v := v, rest := [] }
  | _ :: v' :: q, _, [] => do
    let b ← vget visited v'
    check b
    let r ← vget g v'
    let r' ← skipVisited visited r
    eAdvance g visited (v' :: q) v' r'

/-- `operator++`: bfs_edge_range.hpp:154-182. -/
def eNext (g : Rows α) (st : ERange α) : Res (ERange α) :=
  match st.rest with
  | [] => .error .outOfBounds
  | x :: xs => do
    let vis ← vset st.visited x.1 true
    let xs' ← skipVisited vis xs
    eAdvance g vis (st.queue ++ [x.1]) st.v xs'

/-- The iterator: `*` 185, `== end` 192. -/
def eIter (g : Rows α) : Iter (ERange α) (Nat × Nat × α) where
  atEnd st := .ok (decide (st.queue = []))
  deref st := match st.rest with
    | [] => .error .outOfBounds
    | x :: _ => .ok (st.v, x.1, x.2)
  next := eNext g

/-- The constructor of the range, bfs_edge_range.hpp:127-130, and `begin()`, 148-149. -/
def eInit (g : Rows α) (seed : Nat) : Res (ERange α) := do
  let vis ← vset (List.replicate g.length false) seed true
  let r ← vget g seed
  return { visited := vis, queue := [seed], v := seed, rest := r }

/-- `for (auto&& e : bfs_edge_range(g, seed))` visits `o`. -/
def ERangeVisits (g : Rows α) (seed : Nat) (o : Res (List (Nat × Nat × α))) : Prop :=
  match eInit g seed with
  | .ok st => (eIter g).Visits st o
  | .error f => o = .error f

end NW.Bfs
