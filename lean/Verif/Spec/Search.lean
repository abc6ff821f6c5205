import Verif.Spec.Betweenness
import Verif.Spec.Simple
import Verif.Model.BcWork

/-! # Specification: what a search from `s` has to find -/

namespace NW.Spec

variable {α : Type}

/-- Every reachable vertex has its distance from `s` as its level and the number of shortest paths from `s` (modulo `M`; parallel edges are counted once) as its path count; other vertices have level `inf` and
no path; the predecessors and successors are the neighbours on shortest paths, without repetitions. -/
structure Searched (M inf : Nat) (g : Rows α) (s : Nat) (vs : List BcWork.Node) : Prop where
  size : vs.length = g.length
  reached : ∀ v x d, vs[v]? = some x → IsDist g s v d → x.l = d ∧ x.pc = (shortestPaths (simple g) s v).length % M
  unreached : ∀ v x, vs[v]? = some x → ¬ Reachable g s v → x.l = inf ∧ x.pc = 0
  preds : ∀ v x, vs[v]? = some x → x.preds.Nodup ∧ ∀ u, u ∈ x.preds ↔ ∃ d, IsDist g s u d ∧ IsDist g s v (d + 1) ∧ Edge g u v
  succs : ∀ v x, vs[v]? = some x → x.succs.Nodup ∧ ∀ w, w ∈ x.succs ↔ ∃ d, IsDist g s v d ∧ IsDist g s w (d + 1) ∧ Edge g v w

end NW.Spec
