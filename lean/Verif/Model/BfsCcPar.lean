import Verif.Concur
import Verif.Model.BfsEdges

/-! # Model: the experimental `compute_connected_components`, with its loop run in parallel

include/nwgraph/experimental/algorithms/connected_components.hpp:70-90.  There is one task for each vertex; the tasks take atomic steps, one access to
`component_ids` or to `global_component_counter` each, in any order.  Simplifications: plain accesses to `component_ids`, which race, are taken to be
atomic; a search only reads the graph, which nobody changes, and is one step.  The labels are unsigned integers up to `inf`. -/

namespace NW.BfsCcPar
open Spec

variable {α : Type}

/-- Where the task of a vertex `v` stands. -/
inductive Pc where
  /-- before the test of `component_ids[vtx]`: line 75 -/
  | test (v : Nat)
  /-- before `global_component_counter++`: line 76 -/
  | bump (v : Nat)
  /-- before `global_component_counter.load()`: line 77 -/
  | load (v : Nat)
  /-- before `component_ids[vtx] = c`: line 77 -/
  | store (v c : Nat)
  /-- before the search: line 80 -/
  | search (v : Nat)
  /-- before the loads of line 85 for the pairs `es`; the task is over if there are none -/
  | next (es : List (Nat × Nat))
  /-- before `component_ids[u] = c`, with the pairs `es` to come: line 85 -/
  | put (u c : Nat) (es : List (Nat × Nat))

/-- One step of a task, with the labels `ids` and the counter `k`: lines 75-86.  `target(A, *ite)` is the first component of the pair
(include/nwgraph/graph_concepts.hpp:286-290). -/
inductive TaskStep (inf : Nat) (g : Rows α) (ids : List Nat) (k : Nat) : Pc → Res (List Nat × Nat × Pc) → Prop
  | test {v : Nat} : TaskStep inf g ids k (.test v) (do
      let x ← vget ids v
      if x = inf then return (ids, k, .bump v) else return (ids, k, .next []))
  | bump {v : Nat} : TaskStep inf g ids k (.bump v) (.ok (ids, (k + 1) % (inf + 1), .load v))
  | load {v : Nat} : TaskStep inf g ids k (.load v) (.ok (ids, k, .store v k))
  | store {v c : Nat} : TaskStep inf g ids k (.store v c) (do
      let ids' ← vset ids v c
      return (ids', k, .search v))
  | search {v : Nat} {r : Res (List (Nat × Nat))} : BfsEdges.Visits3 g v r → TaskStep inf g ids k (.search v) (do
      let es ← r
      return (ids, k, .next es))
  | next {e : Nat × Nat} {es : List (Nat × Nat)} : TaskStep inf g ids k (.next (e :: es)) (.ok (ids, k, .put e.1 k es))
  | put {u c : Nat} {es : List (Nat × Nat)} : TaskStep inf g ids k (.put u c es) (do
      let ids' ← vset ids u c
      return (ids', k, .next es))

/-- The labels, the counter and the tasks. -/
structure State where
  ids : List Nat
  counter : Nat
  tasks : List Pc

/-- The loop (lines 74-89): some task takes a step, or all are over. -/
inductive Step (inf : Nat) (g : Rows α) : State → Res (State ⊕ List Nat) → Prop
  | task {s : State} {i : Nat} {t : Pc} {o : Res (List Nat × Nat × Pc)} : s.tasks[i]? = some t → TaskStep inf g s.ids s.counter t o → Step inf g s (do
      let (ids, k, t') ← o
      return .inl ⟨ids, k, s.tasks.set i t'⟩)
  | over {s : State} : (∀ t ∈ s.tasks, t = .next []) → Step inf g s (.ok (.inr s.ids))

/-- The beginning (lines 71-74) with the labels `ids`; the counter is -1, which is the largest unsigned number. -/
def start (inf : Nat) (g : Rows α) (ids : List Nat) : State := ⟨ids, inf, (List.range g.length).map .test⟩

end NW.BfsCcPar
