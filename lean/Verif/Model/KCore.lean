import Verif.Base

/-!
# Model: algorithms/k_core.hpp with dfs_edge_range (adaptors/new_dfs_range.hpp)

The graph is a compressed adjacency: `ix` holds the start of every row and the end of the last one, `col` the neighbours.  The iterators into rows are positions in `col`, so that
reading at the end of a row yields the beginning of the next one, as it does in the code; only positions outside `col` are out of bounds.
-/

namespace NW.KCore

/-- `three_colors`: new_dfs_range.hpp:26. -/
inductive Color where
  | black | white | grey
  deriving DecidableEq

/-- A compressed adjacency. -/
structure Csr where
  ix : List Nat
  col : List Nat

/-- `dfs_edge_range` with its iterator: new_dfs_range.hpp:139-143 and 245-247.  `up` is `u_parent` and `has` is `has_parent_`: both start uninitialised. -/
structure St where
  stack : List Nat
  colors : List Color
  v : Nat
  ub : Nat
  ue : Nat
  up : Option Nat
  has : Option Bool
  back : Bool

/-- `Q.top()`. -/
def top : List Nat → Res Nat
  | [] => .error .emptyContainer
  | x :: _ => return x

/-- `while (get<0>(*u_begin) == Q.top()) { has_parent_ = true; u_parent = u_begin; ++u_begin; }`: new_dfs_range.hpp:162-166 and 203-207. -/
def skipParent (col : List Nat) (t : Nat) (ub : Nat) (up : Option Nat) (has : Option Bool) : Res (Nat × Option Nat × Option Bool) :=
  if h : ub < col.length then
    if col[ub] = t then skipParent col t (ub + 1) (some ub) (some true) else return (ub, up, has)
  else .error .outOfBounds
termination_by col.length - ub

/-- Leaving the vertex: new_dfs_range.hpp:175-179, 193-197 and 212-216. -/
def leave (st : St) : Res St := do
  let colors ← vset st.colors st.v .black
  let t ← top st.stack
  return { st with colors := colors, v := t, has := some false, stack := st.stack.tail }

/-- `u_begin == u_end && !has_parent_`: new_dfs_range.hpp:174 and 211. -/
def stuck (st : St) : Res Bool :=
  if st.ub = st.ue then
    match st.has with
    | none => .error .uninitialised
    | some b => return !b
  else return false

/-- The end of `operator++`: new_dfs_range.hpp:211-219. -/
def finish (st : St) : Res St := do
  let s ← stuck st
  if s then leave st else return st

/-- `if (u_begin == u_end) back_edge_ = true;`: new_dfs_range.hpp:189-191. -/
def markBack (st : St) : St := if st.ub = st.ue then { st with back := true } else st

/-- The branch for a neighbour that is not white: new_dfs_range.hpp:169-186. -/
def skipSeen (g : Csr) (st : St) (u : Nat) : Res St := do
  let t ← top st.stack
  let st := if u = t then { st with up := some st.ub, has := some true } else st
  let st := { st with ub := st.ub + 1 }
  let s ← stuck st
  let st ← if s then leave st else pure st
  if s = true ∧ st.stack = [] then return st
  else if st.ub ≠ st.ue then do
    let w ← vget g.col st.ub
    let t ← top st.stack
    if w = t then finish (markBack { st with up := some st.ub, has := some true, ub := st.ub + 1 })
    else finish (markBack st)
  else finish (markBack st)

/-- The branch for a white neighbour: new_dfs_range.hpp:155-166. -/
def descend (g : Csr) (st : St) (u : Nat) : Res St := do
  let colors ← vset st.colors st.v .grey
  let ub ← vget g.ix u
  let ue ← vget g.ix (u + 1)
  let p ← skipParent g.col st.v ub st.up st.has
  finish (markBack { st with stack := st.v :: st.stack, colors := colors, v := u, ub := p.1, ue := ue, up := p.2.1, has := p.2.2 })

/-- The branch at the end of a row: new_dfs_range.hpp:193-207. -/
def ascend (g : Csr) (st : St) : Res St := do
  let st ← leave st
  if st.stack = [] then return st
  else do
    let c ← vget st.colors st.v
    check (c = .grey)
    let ub ← vget g.ix st.v
    let ue ← vget g.ix (st.v + 1)
    let t ← top st.stack
    let p ← skipParent g.col t ub st.up st.has
    finish { st with ub := p.1, ue := ue, up := p.2.1, has := p.2.2 }

/-- `operator++`: new_dfs_range.hpp:148-220. -/
def next (g : Csr) (st : St) : Res St := do
  let st := { st with back := false }
  if st.ub ≠ st.ue then do
    let u ← vget g.col st.ub
    let c ← vget st.colors u
    if c = .white then descend g st u else skipSeen g st u
  else ascend g st

/-- The target of `operator*`: new_dfs_range.hpp:222-227.  Its source is `v_`. -/
def target (g : Csr) (st : St) : Res Nat :=
  if st.back then
    match st.up with
    | none => .error .uninitialised
    | some i => vget g.col i
  else do
    let u ← vget g.col st.ub
    let _ ← vget st.colors u
    return u

/-- The constructor and `begin()`: new_dfs_range.hpp:125-128 and 144-146. -/
def start (g : Csr) (seed : Nat) : Res St := do
  let colors ← vset (List.replicate (g.ix.length - 1) .white) seed .grey
  let ub ← vget g.ix seed
  let ue ← vget g.ix (seed + 1)
  return { stack := [seed], colors := colors, v := seed, ub := ub, ue := ue, up := none, has := none, back := false }

/-- `make_my_pair`: k_core.hpp:53-56. -/
def pair (x y : Nat) : Nat × Nat := if x < y then (x, y) else (y, x)

/-- What `k_core` keeps: the removed edges, the degrees and the number of vertices. -/
structure Core where
  filter : List (Nat × Nat)
  degree : List Int
  n : Nat

/-- Removing an edge or not: k_core.hpp:87-92. -/
def consider (k : Int) (c : Core) (v w : Nat) : Res Core :=
  if pair v w ∈ c.filter then return c
  else do
    let dv ← vget c.degree v
    if dv < k then do
      let dw ← vget c.degree w
      let degree ← vset c.degree w (dw - 1)
      let n := if dw - 1 = 0 then c.n - 1 else c.n
      let dv ← vget degree v
      let degree ← vset degree v (dv - 1)
      let n := if dv - 1 = 0 then n - 1 else n
      return { filter := c.filter ++ [pair v w], degree := degree, n := n }
    else return c

/-- One round of the loop: k_core.hpp:81-93. -/
def coreBody (g : Csr) (k : Int) (s : St × Core) : Res ((St × Core) ⊕ (List (Nat × Nat) × Nat)) :=
  if s.1.stack = [] then return .inr (s.2.filter, s.2.n)
  else do
    let w ← target g s.1
    let c ← consider k s.2 s.1.v w
    let st ← next g s.1
    return .inl (st, c)

/-- The in-degrees: k_core.hpp:75-77. -/
def degrees (g : Csr) : Res (List Int) :=
  g.col.foldlM (fun d v => do
    let x ← vget d v
    vset d v (x + 1)) (List.replicate (g.ix.length - 1) 0)

/-- `k_core`: k_core.hpp:66-120 -/
def kCore (g : Csr) (k : Int) (o : Res (List (Nat × Nat) × Nat)) : Prop :=
  match degrees g, start g 0 with
  | .error f, _ => o = .error f
  | .ok _, .error f => o = .error f
  | .ok d, .ok st => Loop (coreBody g k) (st, { filter := [], degree := d, n := g.ix.length - 1 }) o

end NW.KCore
