import Verif.Base

/-!
# Specification: adjacency, walks, distances, connectivity

A graph is given by its rows: `g[u]` lists the entries `(v, attribute)` stored for vertex `u`.  Nothing here refers to an
algorithm.
-/

namespace NW.Spec

/-- A graph with attributes: for each vertex the list of its neighbours, in storage order. -/
abbrev Rows (α : Type) := List (List (Nat × α))

variable {α : Type}

/-- The neighbours of `u` in storage order. -/
def nbrs (g : Rows α) (u : Nat) : List Nat := (g.getD u []).map Prod.fst

/-- There is an edge from `u` to `v`. -/
def Edge (g : Rows α) (u v : Nat) : Prop := v ∈ nbrs g u

/-- All neighbours are vertices. -/
def InRange (g : Rows α) : Prop := ∀ u v, Edge g u v → v < g.length

/-- The same, over the stored entries. -/
theorem inRange_iff (g : Rows α) : InRange g ↔ ∀ r ∈ g, ∀ x ∈ r, x.1 < g.length := by
  constructor
  · intro h r hr x hx
    obtain ⟨u, hu, rfl⟩ := List.getElem_of_mem hr
    refine h u x.1 ?_
    rw [Edge, nbrs, List.getD_eq_getElem?_getD, List.getElem?_eq_getElem hu]
    exact List.mem_map_of_mem hx
  · intro h u v he
    rw [Edge, nbrs, List.getD_eq_getElem?_getD] at he
    obtain ⟨x, hx, rfl⟩ := List.mem_map.1 he
    rcases Nat.lt_or_ge u g.length with hu | hu
    · rw [List.getElem?_eq_getElem hu] at hx
      exact h _ (List.getElem_mem hu) x hx
    · rw [List.getElem?_eq_none hu] at hx
      simp at hx

instance (g : Rows α) : Decidable (InRange g) := decidable_of_iff _ (inRange_iff g).symm

/-- A walk of `k` edges. -/
inductive Walk (g : Rows α) (s : Nat) : Nat → Nat → Prop
  | nil : Walk g s s 0
  | snoc {v w k : Nat} : Walk g s v k → Edge g v w → Walk g s w (k + 1)

def Reachable (g : Rows α) (s v : Nat) : Prop := ∃ k, Walk g s v k

/-- `d` is the number of edges of a shortest walk from `s` to `v`. -/
def IsDist (g : Rows α) (s v d : Nat) : Prop := Walk g s v d ∧ ∀ k, Walk g s v k → d ≤ k

theorem IsDist.unique {g : Rows α} {s v d d' : Nat} (h : IsDist g s v d) (h' : IsDist g s v d') : d = d' :=
  Nat.le_antisymm (h.2 _ h'.1) (h'.2 _ h.1)

theorem Walk.lt {g : Rows α} (hg : InRange g) {s v k : Nat} (hs : s < g.length) (h : Walk g s v k) : v < g.length := by
  cases h with
  | nil => exact hs
  | snoc _ he => exact hg _ _ he

/-- Every reachable vertex has a distance. -/
theorem Reachable.exists_dist {g : Rows α} {s v : Nat} (h : Reachable g s v) : ∃ d, IsDist g s v d := by
  obtain ⟨k, hk⟩ := h
  induction k using Nat.strongRecOn with
  | ind k ih =>
    by_cases c : ∃ j, j < k ∧ Walk g s v j
    · obtain ⟨j, hj, hw⟩ := c
      exact ih j hj hw
    · exact ⟨k, hk, fun j hj => Nat.le_of_not_lt fun hlt => c ⟨j, hlt, hj⟩⟩

/-- `par` is a breadth-first search tree of `g` from `root`: the root is its own parent, a vertex has a parent exactly if it is reachable,
and a parent is joined by an edge and is one step closer to the root. -/
structure BfsTree (g : Rows α) (root : Nat) (par : Nat → Option Nat) : Prop where
  rootPar : par root = some root
  reach : ∀ v, (∃ u, par v = some u) ↔ Reachable g root v
  edge : ∀ v u, v ≠ root → par v = some u → Edge g u v ∧ ∃ d, IsDist g root u d ∧ IsDist g root v (d + 1)

/-- Following parents `k` times. -/
def follow (par : Nat → Option Nat) : Nat → Nat → Option Nat
  | 0, v => some v
  | k + 1, v => (par v).bind (follow par k)

/-- Following parents leads to the root in as many steps as the distance. -/
theorem BfsTree.follow_root {g : Rows α} {root : Nat} {par : Nat → Option Nat} (h : BfsTree g root par) {v d : Nat}
    (hd : IsDist g root v d) : follow par d v = some root := by
  induction d generalizing v with
  | zero =>
    cases hd.1
    rfl
  | succ d ih =>
    have hne : v ≠ root := by
      rintro rfl
      have := hd.2 0 .nil
      omega
    obtain ⟨u, hu⟩ := (h.reach v).2 ⟨_, hd.1⟩
    obtain ⟨_, d', h1, h2⟩ := h.edge v u hne hu
    have : d' + 1 = d + 1 := h2.unique hd
    have : d' = d := by omega
    subst this
    simp only [follow, hu]
    exact ih h1

/-- `gt` is `g` with all edges reversed. -/
def IsTranspose (g gt : Rows α) : Prop := gt.length = g.length ∧ ∀ u v, Edge gt u v ↔ Edge g v u

theorem Edge.src_lt {g : Rows α} {u v : Nat} (h : Edge g u v) : u < g.length := by
  rcases Nat.lt_or_ge u g.length with hu | hu
  · exact hu
  · rw [Edge, nbrs, List.getD_eq_getElem?_getD, List.getElem?_eq_none hu] at h
    simp at h

instance (g : Rows α) (u v : Nat) : Decidable (Edge g u v) := inferInstanceAs (Decidable (v ∈ nbrs g u))

/-- It is enough to look at the vertices. -/
theorem isTranspose_iff (g gt : Rows α) (hg : InRange g) (hgt : InRange gt) :
    IsTranspose g gt ↔ gt.length = g.length ∧ ∀ u < g.length, ∀ v < g.length, (Edge gt u v ↔ Edge g v u) := by
  constructor
  · rintro ⟨h1, h2⟩; exact ⟨h1, fun u _ v _ => h2 u v⟩
  · rintro ⟨h1, h2⟩
    refine ⟨h1, fun u v => ⟨fun h => ?_, fun h => ?_⟩⟩
    · exact (h2 u (h1 ▸ h.src_lt) v (h1 ▸ hgt u v h)).1 h
    · exact (h2 u (hg v u h) v h.src_lt).2 h

end NW.Spec
