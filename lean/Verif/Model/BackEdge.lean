import Verif.Base
import Verif.Spec.Walk

/-!
# Model of adaptors/back_edge_range.hpp

The underlying graph is a list of rows of edges with properties of type `β`.  References to edges are modelled as locations.  Simplification: 64-bit numbers are
natural numbers.
-/

namespace NW.BackEdge
open Spec

variable {β X : Type}

/-- `std::map<size_t, X>`: in order of the keys. -/
abbrev SMap (X : Type) := List (Nat × X)

/-- `m.find(k)`. -/
def find : SMap X → Nat → Option X
  | [], _ => none
  | (k', x) :: m, k => if k' = k then some x else find m k

/-- `m.emplace(k, x)`, which does nothing if the key is present. -/
def emplace : SMap X → Nat → X → SMap X
  | [], k, x => [(k, x)]
  | (k', x') :: m, k, x => if k < k' then (k, x) :: (k', x') :: m else if k = k' then (k', x') :: m else (k', x') :: emplace m k x

/-- Changes the value stored for a key that is present. -/
def update : SMap X → Nat → (X → X) → SMap X
  | [], _, _ => []
  | (k', x) :: m, k, f => if k' = k then (k', f x) :: m else (k', x) :: update m k f

/-- The places where edges are stored: the `k`-th edge of row `v`; `back_address_extra[v][u]`; `address_extra[v][u]`. -/
inductive Loc where
  | row (v k : Nat)
  | bx (v u : Nat)
  | ax (v u : Nat)
  deriving DecidableEq

/-- `back_edge_range`: back_edge_range.hpp:222-225.  `back_address` holds references to edges of the graph. -/
structure BE (β : Type) where
  g : Rows β
  back : List (SMap (Nat × Nat))
  bextra : List (SMap (Nat × β))
  aextra : List (SMap (Nat × β))

/-- Reads the edge at a location. -/
def read (s : BE β) : Loc → Res (Nat × β)
  | .row v k => do
    let r ← vget s.g v
    vget r k
  | .bx v u => do
    let m ← vget s.bextra v
    match find m u with
    | some e => return e
    | none => .error .outOfBounds
  | .ax v u => do
    let m ← vget s.aextra v
    match find m u with
    | some e => return e
    | none => .error .outOfBounds

/-- Writes the properties of the edge at a location. -/
def write (s : BE β) (l : Loc) (b : β) : Res (BE β) :=
  match l with
  | .row v k => do
    let r ← vget s.g v
    let e ← vget r k
    let r ← vset r k (e.1, b)
    let g ← vset s.g v r
    return { s with g := g }
  | .bx v u => do
    let m ← vget s.bextra v
    let x ← vset s.bextra v (update m u fun e => (e.1, b))
    return { s with bextra := x }
  | .ax v u => do
    let m ← vget s.aextra v
    let x ← vset s.aextra v (update m u fun e => (e.1, b))
    return { s with aextra := x }

/-- `back_address[v].insert_or_assign(u, edge)`: if the key is present, the assignment goes through the reference that is stored. -/
def assign (s : BE β) (v u : Nat) (p : Nat × Nat) : Res (BE β) := do
  let m ← vget s.back v
  match find m u with
  | none =>
    let back ← vset s.back v (emplace m u p)
    return { s with back := back }
  | some q =>
    let e ← read s (.row p.1 p.2)
    let r ← vget s.g q.1
    let r ← vset r q.2 e
    let g ← vset s.g q.1 r
    return { s with g := g }

/-- An extra edge for the edge `k` from `v` to `u`, which has no counterpart: back_edge_range.hpp:58-62 and 199-203.  `zero` is the value of the properties of an edge
created by `edge extra_edge`. -/
def addExtra (zero : β) (s : BE β) (v u k : Nat) : Res (BE β) := do
  let bx ← vget s.bextra v
  let bextra ← vset s.bextra v (emplace bx u (v, zero))
  let ax ← vget s.aextra u
  let aextra ← vset s.aextra u (emplace ax v (v, zero))
  let bk ← vget s.back u
  let back ← vset s.back u (emplace bk v (v, k))
  return { s with back := back, bextra := bextra, aextra := aextra }

/-- The search for the edge back to `v`: back_edge_range.hpp:50-51 and 192-194. -/
def first (row : List (Nat × β)) (v : Nat) : Option Nat := row.findIdx? fun e => decide (e.1 = v)

/-- The body of the inner loop of the constructor for the `k`-th edge of row `v`: back_edge_range.hpp:44-63. -/
def buildEdge (zero : β) (v : Nat) (s : BE β) (k : Nat) : Res (BE β) := do
  let row ← vget s.g v
  let e ← vget row k
  let nrow ← vget s.g e.1
  let m ← vget s.back v
  if (find m e.1).isSome then return s
  else
    match first nrow v with
    | some j =>
      if v < e.1 then do
        let s ← assign s v e.1 (e.1, j)
        assign s e.1 v (v, k)
      else return s
    | none => addExtra zero s v e.1 k

/-- One vertex of the outer loop: back_edge_range.hpp:42-65. -/
def buildRow (zero : β) (s : BE β) (v : Nat) : Res (BE β) := do
  let row ← vget s.g v
  (List.range row.length).foldlM (buildEdge zero v) s

/-- The members before the body of the constructor: back_edge_range.hpp:39-40. -/
def empty (g : Rows β) : BE β :=
  { g := g, back := List.replicate g.length [], bextra := List.replicate g.length [], aextra := List.replicate g.length [] }

/-- The constructor: back_edge_range.hpp:38-67. -/
def build (zero : β) (g : Rows β) (asNeeded : Bool) : Res (BE β) :=
  if asNeeded then return empty g
  else (List.range g.length).foldlM (buildRow zero) (empty g)

/-- The edges of vertex `v`: a loop over `back_edge_range_iterator`s, back_edge_range.hpp:83-112. -/
def inner (s : BE β) (v : Nat) : Res (List Loc) := do
  let row ← vget s.g v
  let m ← vget s.aextra v
  return (List.range row.length).map (Loc.row v) ++ m.map fun p => Loc.ax v p.1

/-- The two lookups at the beginning and at the end of `get_back_edge`: back_edge_range.hpp:179-185 and 208-212. -/
def lookup (s : BE β) (v u : Nat) : Res (Option Loc) := do
  let m ← vget s.back v
  match find m u with
  | some p => return some (.row p.1 p.2)
  | none =>
    let x ← vget s.bextra v
    match find x u with
    | some _ => return some (.bx v u)
    | none => return none

/-- `get_back_edge(v, u)`: back_edge_range.hpp:178-213.  At the end of the search `it2` is dereferenced in any case. -/
def getBack (zero : β) (s : BE β) (v u : Nat) : Res (BE β × Loc) := do
  let l ← lookup s v u
  match l with
  | some l => return (s, l)
  | none =>
    let row ← vget s.g v
    let s ← match first row u with
      | none => pure s
      | some k => do
        let nrow ← vget s.g u
        match first nrow v with
        | some j => do
          let s ← assign s u v (v, k)
          assign s v u (u, j)
        | none => addExtra zero s v u k
    let l ← lookup s v u
    match l with
    | some l => return (s, l)
    | none => .error .outOfBounds

end NW.BackEdge
