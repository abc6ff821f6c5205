import Verif.Spec.Search
import Verif.Model.BcAsync

/-! # Specification: what the threads of approx_betweenness_worklist leave behind -/

namespace NW.BcAsync
open Spec
open NW.BcWork (Node work)

variable {α : Type}

/-- When the threads of the search have ended, the work list is empty.  The items that threads held when they ended are edges of reachable vertices, and there is at least one (if `ne`).
If to treat them would change nothing, the search has found everything. -/
structure Left (M inf : Nat) (g : Rows α) (s : Nat) (ne : Prop) (r : St) : Prop where
  empty : r.W = []
  items : ∀ e ∈ r.lost, Edge g e.1 e.2 ∧ Reachable g s e.1
  lost : ne → r.lost ≠ []
  settled : (∀ e ∈ r.lost, work M inf (fun _ l => l) g r.vs e.1 e.2 = .ok (r.vs, [])) → Spec.Searched M inf g s r.vs

/-- `w` is `v`, or a shortest path from `s` to `w` passes through `v`. -/
def OnTheWay (g : Rows α) (s v w : Nat) : Prop := v = w ∨ ∃ d k, IsDist g s v d ∧ Walk g v w k ∧ IsDist g s w (d + k)

/-- When the threads of the way back have ended, the second work list is empty, and at least one vertex was held by a thread that ended.  The score of a vertex has grown by the dependency of `s` on it,
unless it is `s` or on the way to a vertex that was lost: then it is unchanged. -/
structure BackLeft (g : Rows α) (s : Nat) (cent : List ℚ) (r : BSt) : Prop where
  empty : r.b.q = []
  size : r.b.cent.length = cent.length
  lost : r.lost ≠ []
  full : ∀ (v : Nat) (c : ℚ), cent[v]? = some c → v ≠ s → (¬ ∃ w ∈ r.lost, OnTheWay g s v w) → r.b.cent[v]? = some (c + dependency (simple g) s v)
  none : ∀ (v : Nat) (c : ℚ), cent[v]? = some c → (v = s ∨ ∃ w ∈ r.lost, OnTheWay g s v w) → r.b.cent[v]? = some c

end NW.BcAsync
