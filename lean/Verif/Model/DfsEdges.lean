import Verif.Spec.Walk
import Verif.Iter
import Verif.Model.DfsRange

/-!
# Model of `dfs_edge_range`: adaptors/dfs_range.hpp:122-201 (the class of the same name in new_dfs_range.hpp is a different one, see `Model/KCore`)

The stack is a list with its top first; `rest` are the entries of the row of `v_` from `u_begin` to `u_end`.  The assertion is checked, as it is unless `NDEBUG` is defined.
-/

namespace NW.DfsEdges
open Spec DfsRange

variable {α : Type}

/-- The range and the iterator: dfs_range.hpp:138-141, 198-200. -/
structure St (α : Type) where
  q : List Nat
  colors : List Color
  v : Nat
  rest : List (Nat × α)
  deriving DecidableEq

/-- The constructors: dfs_range.hpp:126-129, 144-145, 194.  `colors_` may have one entry more (see C08), which is never used. -/
def start (g : Rows α) (seed : Nat) : Res (St α) := do
  let colors ← vset (List.replicate g.length Color.white) seed .grey
  let row ← vget g seed
  return ⟨[seed], colors, seed, row⟩

/-- Moving `u_begin` to the next neighbour that is white: dfs_range.hpp:159-161, 173-175. -/
def skip (colors : List Color) : List (Nat × α) → Res (List (Nat × α))
  | [] => .ok []
  | e :: es => do
    let c ← vget colors e.1
    if c ≠ .white then skip colors es else .ok (e :: es)

/-- The loop that leaves vertices, entered with `u_begin == u_end`: dfs_range.hpp:163-176. -/
def unwind (g : Rows α) : List Nat → List Color → Nat → Res (St α)
  | [], _, _ => .error .emptyContainer
  | t :: q, colors, v => do
    let colors ← vset colors v .black
    if q = [] then return ⟨q, colors, t, []⟩
    else do
      let c ← vget colors t
      check (decide (c = .grey))
      let row ← vget g t
      let rest ← skip colors row
      if rest = [] then unwind g q colors t else return ⟨q, colors, t, rest⟩

/-- `operator++`: dfs_range.hpp:147-179. -/
def next (g : Rows α) (s : St α) : Res (St α) := do
  let colors ← vset s.colors s.v .grey
  match s.rest with
  | [] => .error .outOfBounds
  | e :: _ => do
    let row ← vget g e.1
    let rest ← skip colors row
    if rest = [] then unwind g (s.v :: s.q) colors e.1 else return ⟨s.v :: s.q, colors, e.1, rest⟩

/-- `operator*`: dfs_range.hpp:181. -/
def deref (s : St α) : Res (Nat × Nat × α) :=
  match s.rest with
  | [] => .error .outOfBounds
  | e :: _ => .ok (s.v, e)

/-- The iterator and its end: dfs_range.hpp:134, 188-189. -/
def iter (g : Rows α) : Iter (St α) (Nat × Nat × α) where
  atEnd s := .ok (decide (s.q = []))
  deref := deref
  next := next g

/-- `for (auto&& e : dfs_edge_range(g, seed))` ends with `o`. -/
def Visits (g : Rows α) (seed : Nat) (o : Res (List (Nat × Nat × α))) : Prop :=
  match start g seed with
  | .error f => o = .error f
  | .ok s => (iter g).Visits s o

end NW.DfsEdges
