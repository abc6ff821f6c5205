import Verif.Spec.Walk

/-!
# Model of `dfs_range`: adaptors/new_dfs_range.hpp:28-119 (adaptors/dfs_range.hpp:29-119 is the same code)

A loop over the range, from the constructor on, in small steps.  The stack is a list with its top first.
-/

namespace NW.DfsRange
open Spec

variable {α : Type}

/-- `three_colors`: new_dfs_range.hpp:26. -/
inductive Color where
  | black
  | white
  | grey
  deriving DecidableEq

/-- Where the program stands: in `dfs_visit` at the vertex `v` with the neighbours `rest` to come; at the test `it != end()`; in the loop of `operator++` that pops; in the
loop that moves the cursor. -/
inductive Mode (α : Type) where
  | visit (v : Nat) (rest : List (Nat × α))
  | head
  | pop
  | search

/-- The range, the iterator's cursor, and what has been delivered. -/
structure St (α : Type) where
  mode : Mode α
  q : List Nat
  colors : List Color
  cursor : Nat
  out : List Nat

/-- One round of the loop in `dfs_visit`: new_dfs_range.hpp:50-63.  The last two statements, 61-62, are inside the loop. -/
def visitStep (g : Rows α) (st : St α) (v : Nat) (x : Nat × α) (rest : List (Nat × α)) : Res (St α) := do
  let c ← vget st.colors x.1
  if c = .white then
    let colors ← vset st.colors v .grey
    let row ← vget g x.1
    let colors ← vset colors x.1 .black
    return { st with mode := .visit x.1 row, q := x.1 :: v :: st.q, colors := colors }
  else
    let colors ← vset st.colors v .black
    return { st with mode := .visit v rest, q := v :: st.q, colors := colors }

/-- One round of the loop that pops, and what follows it: new_dfs_range.hpp:76-80. -/
def popStep (g : Rows α) (st : St α) : Res (St α) :=
  match st.q with
  | [] => return { st with mode := .search }
  | x :: q => do
    let c ← vget st.colors x
    if c = .black then return { st with q := q }
    else
      let row ← vget g x
      return { st with mode := .visit x row }

/-- One round of the loop that moves the cursor, and what follows it: new_dfs_range.hpp:82-88. -/
def searchStep (g : Rows α) (st : St α) : Res (St α) := do
  let c ← vget st.colors (st.cursor + 1)
  if c ≠ .white ∧ st.cursor + 1 ≠ g.length then return { st with cursor := st.cursor + 1 }
  else if st.cursor + 1 ≠ g.length then
    let colors ← vset st.colors (st.cursor + 1) .grey
    let row ← vget g (st.cursor + 1)
    return { st with mode := .visit (st.cursor + 1) row, q := [st.cursor + 1], colors := colors, cursor := st.cursor + 1 }
  else return { st with mode := .head, cursor := st.cursor + 1 }

/-- One step.  At the head: `it != end()` (103, 42) and `*it` (94). -/
def step (g : Rows α) (st : St α) : Res (St α ⊕ List Nat) :=
  match st.mode with
  | .visit _ [] => return .inl { st with mode := .head }
  | .visit v (x :: rest) => Sum.inl <$> visitStep g st v x rest
  | .head =>
    match st.q with
    | [] => return .inr st.out
    | x :: _ => return .inl { st with mode := .pop, out := st.out ++ [x] }
  | .pop => Sum.inl <$> popStep g st
  | .search => Sum.inl <$> searchStep g st

/-- The constructor: new_dfs_range.hpp:32-37, 69. -/
def start (g : Rows α) (seed : Nat) : Res (St α) := do
  let colors ← vset (List.replicate g.length .white) seed .grey
  let row ← vget g seed
  return { mode := .visit seed row, q := [seed], colors := colors, cursor := 0, out := [] }

end NW.DfsRange
