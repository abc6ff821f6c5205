import Verif.Run

/-!
# Model of util/disjoint_set.hpp (the functions) and algorithms/kruskal.hpp

A vector of (parent, rank) pairs.  Ranks are natural numbers (no wrap-around).
-/

namespace NW.Dsu

/-- `std::vector<std::pair<vertex_id_type, size_t>>`. -/
abbrev Subsets := List (Nat × Nat)

/-- The loop looking for the root: disjoint_set.hpp:42-44. -/
def rootBody (s : Subsets) (parent : Nat) : Res (Nat ⊕ Nat) := do
  let e ← vget s parent
  if parent ≠ e.1 then return .inl e.1 else return .inr parent

/-- The loop compressing the path: disjoint_set.hpp:45-48. -/
def pathBody (parent : Nat) (st : Subsets × Nat) : Res ((Subsets × Nat) ⊕ Subsets) := do
  if st.2 ≠ parent then
    let e ← vget st.1 st.2
    let e' ← vget st.1 e.1
    let s ← vset st.1 e.1 (parent, e'.2)
    return .inl (s, e.1)
  else return .inr st.1

/-- `disjoint_find(subsets, vtx)`: disjoint_set.hpp:40-51. -/
def disjointFind (s : Subsets) (vtx : Nat) : Run (Subsets × Nat) := do
  let e ← Run.lift (vget s vtx)
  let parent ← Run.loop (rootBody s) e.1
  let s ← Run.loop (pathBody parent) (s, vtx)
  return (s, parent)

/-- Hanging one root below the other: disjoint_set.hpp:57-66 and 75-84. -/
def hang (s : Subsets) (ur vr : Nat) : Res Subsets := do
  let a ← vget s ur
  let b ← vget s vr
  if a.2 < b.2 then vset s ur (vr, a.2)
  else if a.2 > b.2 then vset s vr (ur, b.2)
  else
    let s ← vset s vr (ur, b.2)
    let a ← vget s ur
    vset s ur (a.1, a.2 + 1)

/-- `disjoint_union(subsets, u, v)`: disjoint_set.hpp:53-67. -/
def disjointUnion (s : Subsets) (u v : Nat) : Run Subsets := do
  let (s, ur) ← disjointFind s u
  let (s, vr) ← disjointFind s v
  Run.lift (hang s ur vr)

/-- `disjoint_union_find(subsets, u, v)`: disjoint_set.hpp:69-90. -/
def disjointUnionFind (s : Subsets) (u v : Nat) : Run (Subsets × Bool) := do
  let (s, ur) ← disjointFind s u
  let (s, vr) ← disjointFind s v
  if ur ≠ vr then
    let s ← Run.lift (hang s ur vr)
    return (s, true)
  else return (s, false)

/-- The initialisation of the vector: kruskal.hpp:57-61. -/
def singletons (n : Nat) : Subsets := (List.range n).map fun i => (i, 0)

/-- One edge: kruskal.hpp:63-70. -/
def kruskalStep {W : Type} (st : Subsets × List (Nat × Nat × W)) (y : Nat × Nat × W) : Run (Subsets × List (Nat × Nat × W)) := do
  let (s, b) ← disjointUnionFind st.1 y.1 y.2.1
  return (s, if b then st.2 ++ [y] else st.2)

/-- `kruskal(E)`: kruskal.hpp:38-41, 51-73.  `std::sort` may produce any arrangement that is sorted by weight.  The number of subsets is `E.size()`,
the number of edges, as in the code.  The result is the edges pushed to `T`. -/
def kruskal {W : Type} [LE W] (E : List (Nat × Nat × W)) : Run (List (Nat × Nat × W)) := do
  let nVtx := E.length
  let sorted ← Run.choose fun l : List (Nat × Nat × W) => l.Perm E ∧ l.Pairwise fun x y => x.2.2 ≤ y.2.2
  let r ← sorted.foldlM kruskalStep (singletons nVtx, [])
  return r.2

end NW.Dsu
