import Verif.Model.BfsEdges

/-! # Model: the experimental `compute_connected_components`, with its loop run in order

include/nwgraph/experimental/algorithms/connected_components.hpp:70-90. -/

namespace NW.BfsCc
open Spec

variable {α : Type}

/-- The inner loop over the pairs of the search (lines 81-86): `target(A, e)` is the first component of the pair, that is the tree
parent (include/nwgraph/graph_concepts.hpp:286-290). -/
def label (c : Nat) : List (Nat × Nat) → List Nat → Res (List Nat)
  | [], ids => return ids
  | e :: es, ids => do label c es (← vset ids e.1 c)

/-- The loop of lines 74-89 over the vertices `vs`, run in order, with the labels `ids` and the number `c` of components begun so far
(`global_component_counter + 1`).  A search that does not end has no outcome.  The parallel policy is not modelled: the in-order run is
one of the executions it allows. -/
inductive Go (inf : Nat) (g : Rows α) : List Nat → List Nat → Nat → Res (List Nat) → Prop
  | nil {ids : List Nat} {c : Nat} : Go inf g [] ids c (.ok ids)
  | oob {v : Nat} {vs ids : List Nat} {c : Nat} {f : Fault} : vget ids v = .error f → Go inf g (v :: vs) ids c (.error f)
  | skip {v x : Nat} {vs ids : List Nat} {c : Nat} {o : Res (List Nat)} : vget ids v = .ok x → x ≠ inf → Go inf g vs ids c o →
      Go inf g (v :: vs) ids c o
  | fault {v : Nat} {vs ids : List Nat} {c : Nat} {f : Fault} : vget ids v = .ok inf → BfsEdges.Visits3 g v (.error f) →
      Go inf g (v :: vs) ids c (.error f)
  | bad {v : Nat} {vs ids : List Nat} {c : Nat} {es : List (Nat × Nat)} {f : Fault} : vget ids v = .ok inf →
      BfsEdges.Visits3 g v (.ok es) → (vset ids v c >>= label c es) = .error f → Go inf g (v :: vs) ids c (.error f)
  | search {v : Nat} {vs ids ids' : List Nat} {c : Nat} {es : List (Nat × Nat)} {o : Res (List Nat)} : vget ids v = .ok inf →
      BfsEdges.Visits3 g v (.ok es) → (vset ids v c >>= label c es) = .ok ids' → Go inf g vs ids' (c + 1) o → Go inf g (v :: vs) ids c o

/-- compute_connected_components (lines 70-90) on the labels `ids`. -/
def Cc (inf : Nat) (g : Rows α) (ids : List Nat) (o : Res (List Nat)) : Prop := Go inf g (List.range g.length) ids 0 o

end NW.BfsCc
