import Verif.Props.Bfs
import Verif.Props.BfsEdges
import Verif.Props.DfsEdges
import Verif.Props.SsspWrap

/-!
# The ranges and delta stepping have one outcome

The theorems C54, C55, C77, C132 and C144 are about an outcome that exists.  Here they are about every outcome.
-/

namespace NW

variable {α : Type}

namespace Bfs
open Spec

theorem RangeVisits.det {g : Rows α} {seed : Nat} {o₁ o₂ : Res (List Nat)} (h₁ : RangeVisits g seed o₁) (h₂ : RangeVisits g seed o₂) : o₁ = o₂ := by
  unfold RangeVisits at h₁ h₂
  split at h₁ <;> rename_i hs <;> rw [hs] at h₂
  · exact h₁.det h₂
  · exact h₁.trans h₂.symm

theorem ERangeVisits.det {g : Rows α} {seed : Nat} {o₁ o₂ : Res (List (Nat × Nat × α))} (h₁ : ERangeVisits g seed o₁) (h₂ : ERangeVisits g seed o₂) : o₁ = o₂ := by
  unfold ERangeVisits at h₁ h₂
  split at h₁ <;> rename_i hs <;> rw [hs] at h₂
  · exact h₁.det h₂
  · exact h₁.trans h₂.symm

/-- C54 for every outcome. -/
theorem topdown_bfs_range_outcome (g : Rows α) (hg : InRange g) (seed : Nat) (hs : seed < g.length) :
    ∃ vs, BfsOrder g seed vs ∧ ∀ o, RangeVisits g seed o ↔ o = .ok vs := by
  obtain ⟨vs, h1, h2⟩ := topdown_bfs_range_correct g hg seed hs
  exact ⟨vs, h2, fun o => ⟨fun h => h.det h1, fun e => e ▸ h1⟩⟩

/-- C55 for every outcome; what is missing is what `bfs_edge_range_partial` misses. -/
theorem bfs_edge_range_outcome_partial (g : Rows α) (hg : InRange g) (seed : Nat) (hs : seed < g.length) (x₀ : Nat × α) (r₀ : List (Nat × α))
    (hrow : g.getD seed [] = x₀ :: r₀) (hne : x₀.1 ≠ seed) : ∃ es, BfsEdges g seed es ∧ ∀ o, ERangeVisits g seed o ↔ o = .ok es := by
  obtain ⟨es, h1, h2⟩ := bfs_edge_range_partial g hg seed hs x₀ r₀ hrow hne
  exact ⟨es, h2, fun o => ⟨fun h => h.det h1, fun e => e ▸ h1⟩⟩

end Bfs

namespace BfsEdges
open Spec

theorem BuVisits.det {g : Rows α} {seed : Nat} {o₁ o₂ : Res (List (Nat × Nat))} (h₁ : BuVisits g seed o₁) (h₂ : BuVisits g seed o₂) : o₁ = o₂ := by
  unfold BuVisits at h₁ h₂
  split at h₁ <;> rename_i hs <;> rw [hs] at h₂
  · exact h₁.det h₂
  · exact h₁.trans h₂.symm

/-- C77 for every outcome; what is missing is what `bottomup_bfs_range_partial` misses. -/
theorem bottomup_bfs_range_outcome_partial (g : Rows α) (hg : InRange g) (seed : Nat) (hs : seed < g.length) :
    ∃ es, (∀ o, BuVisits g seed o ↔ o = .ok es) ∧ es.map Prod.fst = (List.range g.length).map (fun i => (seed + i) % g.length) ∧
      (∀ v p, es[0]? = some (v, p) → p = (nbrs g v).headD v) ∧
      ∀ i, 0 < i → ∀ v p, es[i]? = some (v, p) → (nbrs g v = [] → p = v) ∧
        ((∃ u, Edge g v u ∧ u ∈ (es.take i).map Prod.fst) → Edge g v p ∧ p ∈ (es.take i).map Prod.fst) := by
  obtain ⟨es, h1, h2⟩ := bottomup_bfs_range_partial g hg seed hs
  exact ⟨es, fun o => ⟨fun h => h.det h1, fun e => e ▸ h1⟩, h2⟩

end BfsEdges

namespace DfsEdges
open Spec

theorem Visits.det {g : Rows α} {seed : Nat} {o₁ o₂ : Res (List (Nat × Nat × α))} (h₁ : Visits g seed o₁) (h₂ : Visits g seed o₂) : o₁ = o₂ := by
  unfold Visits at h₁ h₂
  split at h₁ <;> rename_i hs <;> rw [hs] at h₂
  · exact h₁.trans h₂.symm
  · exact Iter.Visits.det h₁ h₂

/-- C132 for every outcome; what is missing is what `dfs_edges_search_partial` misses. -/
theorem dfs_edges_outcome_partial (g : Rows α) (seed : Nat) (hg : InRange g) (hs : seed < g.length) (hloop : ∀ u, u ≠ seed → ¬ Edge g u u)
    (e : Nat × α) (hrow : (g.getD seed []).head? = some e) (hne : e.1 ≠ seed) :
    ∃ es, DepthFirst g [seed] es ∧ ∀ o, Visits g seed o ↔ o = .ok es := by
  obtain ⟨es, h1, h2⟩ := dfs_edges_search_partial g seed hg hs hloop e hrow hne
  exact ⟨es, h2, fun o => ⟨fun h => h.det h1, fun e => e ▸ h1⟩⟩

end DfsEdges

namespace Sssp
open Spec

/-- C144 for every outcome of the sequential `delta_stepping`; what is missing is what `delta_stepping_any_weights_partial` misses. -/
theorem delta_stepping_any_weights_outcome_partial (g : Rows α) (hg : InRange g) (wt : Nat × α → Nat) (source dmax delta : Nat) (hs : source < g.length) (hd : 0 < delta) (hmax : 0 < dmax) :
    ∃ r, Wrapped g wt source dmax dmax r ∧ ∀ o, Delta g wt dmax delta source o ↔ o = .ok r := by
  obtain ⟨r, h1, h2⟩ := delta_stepping_any_weights_partial g hg wt source dmax delta hs hd hmax
  exact ⟨r, h2, fun o => ⟨fun h => Delta.det h h1, fun e => e ▸ h1⟩⟩

end Sssp

/-! ## Cases of the theorems: a path of three vertices, with edges in both directions -/

open Spec

/-- 0 — 1 — 2. -/
def exThree : Rows Unit := [[(1, ())], [(0, ()), (2, ())], [(1, ())]]

theorem exThree_inRange : InRange exThree := by decide

example : ∃ vs, Bfs.BfsOrder exThree 0 vs ∧ ∀ o, Bfs.RangeVisits exThree 0 o ↔ o = .ok vs := Bfs.topdown_bfs_range_outcome exThree exThree_inRange 0 (by decide)

example : ∃ es, Bfs.BfsEdges exThree 0 es ∧ ∀ o, Bfs.ERangeVisits exThree 0 o ↔ o = .ok es :=
  Bfs.bfs_edge_range_outcome_partial exThree exThree_inRange 0 (by decide) (1, ()) [] rfl (by decide)

example : ∃ es, (∀ o, BfsEdges.BuVisits exThree 1 o ↔ o = .ok es) ∧ es.map Prod.fst = [1, 2, 0] := by
  obtain ⟨es, h1, h2, -⟩ := BfsEdges.bottomup_bfs_range_outcome_partial exThree exThree_inRange 1 (by decide)
  exact ⟨es, h1, h2⟩

example : ∃ es, DepthFirst exThree [0] es ∧ ∀ o, DfsEdges.Visits exThree 0 o ↔ o = .ok es := by
  refine DfsEdges.dfs_edges_outcome_partial exThree 0 exThree_inRange (by decide) (fun u _ h => ?_) (1, ()) rfl (by decide)
  match u with
  | 0 | 1 | 2 => revert h; decide
  | u + 3 => simp [Spec.Edge, Spec.nbrs, exThree] at h

example : ∃ r, Sssp.Wrapped Sssp.exWrap (·.2) 0 255 255 r ∧ ∀ o, Sssp.Delta Sssp.exWrap (·.2) 255 255 0 o ↔ o = .ok r :=
  Sssp.delta_stepping_any_weights_outcome_partial Sssp.exWrap (by decide) _ 0 255 255 (by decide) (by decide) (by decide)

end NW
