import Verif.Spec.Walk
import Mathlib.Data.List.Perm.Subperm
import Mathlib.Data.List.Nodup
import Mathlib.Tactic.Push
import Mathlib.Logic.Basic
import Mathlib.Tactic.Choose

/-! # Lemmas about distances -/

namespace NW.Spec
variable {α : Type} {g : Rows α} {s : Nat}

theorem IsDist.zero (g : Rows α) (s : Nat) : IsDist g s s 0 := ⟨.nil, fun _ _ => Nat.zero_le _⟩

theorem IsDist.of_zero {v : Nat} (h : IsDist g s v 0) : v = s := by cases h.1; rfl

theorem IsDist.pred {v d : Nat} (h : IsDist g s v (d + 1)) : ∃ u, IsDist g s u d ∧ Edge g u v := by
  cases h.1 with
  | @snoc u _ _ h1 h2 =>
    refine ⟨u, ⟨h1, ?_⟩, h2⟩
    intro k hk
    have := h.2 _ (.snoc hk h2)
    omega

theorem IsDist.down {v d j : Nat} (h : IsDist g s v d) (hj : j ≤ d) : ∃ w, IsDist g s w j := by
  induction d generalizing v with
  | zero =>
    obtain rfl : j = 0 := by omega
    exact ⟨v, h⟩
  | succ d ih =>
    rcases Nat.lt_or_ge d j with c | c
    · obtain rfl : j = d + 1 := by omega
      exact ⟨v, h⟩
    · obtain ⟨u, hu, _⟩ := h.pred
      exact ih hu c

/-- Distances are smaller than the number of vertices. -/
theorem IsDist.lt_length (hg : InRange g) (hs : s < g.length) {v d : Nat} (h : IsDist g s v d) : d < g.length := by
  have hall : ∀ j, j ≤ d → ∃ w, IsDist g s w j := fun j hj => h.down hj
  choose! f hf using hall
  have hnd : ((List.range (d + 1)).map f).Nodup := by
    refine List.Nodup.map_on ?_ List.nodup_range
    intro a ha b hb hab
    have h1 := hf a (by simp at ha; omega)
    have h2 := hf b (by simp at hb; omega)
    rw [hab] at h1
    exact h1.unique h2
  have hsub : ∀ w ∈ (List.range (d + 1)).map f, w ∈ List.range g.length := by
    intro w hw
    obtain ⟨j, hj, rfl⟩ := List.mem_map.1 hw
    exact List.mem_range.2 ((hf j (by simp at hj; omega)).1.lt hg hs)
  have := (List.Nodup.subperm hnd hsub).length_le
  simp at this
  omega

/-- Within distance `l`. -/
def Near (g : Rows α) (s l v : Nat) : Prop := ∃ d, d ≤ l ∧ IsDist g s v d

theorem Near.step {l v w : Nat} (h : Near g s l v) (he : Edge g v w) : Near g s (l + 1) w := by
  obtain ⟨d, h1, h2⟩ := h
  have hr : Reachable g s w := ⟨_, .snoc h2.1 he⟩
  obtain ⟨e, hd⟩ := hr.exists_dist
  have := hd.2 _ (.snoc h2.1 he)
  exact ⟨e, by omega, hd⟩

theorem near_succ {l v : Nat} : Near g s (l + 1) v ↔ Near g s l v ∨ IsDist g s v (l + 1) := by
  constructor
  · rintro ⟨d, h1, h2⟩
    rcases Nat.lt_or_ge d (l + 1) with c | c
    · exact Or.inl ⟨d, by omega, h2⟩
    · obtain rfl : d = l + 1 := by omega
      exact Or.inr h2
  · rintro (⟨d, h1, h2⟩ | h)
    · exact ⟨d, by omega, h2⟩
    · exact ⟨_, Nat.le_refl _, h⟩

theorem IsDist.not_near {l v : Nat} (h : IsDist g s v (l + 1)) : ¬ Near g s l v := by
  rintro ⟨d, h1, h2⟩
  have := h2.unique h
  omega

theorem IsDist.near {l v : Nat} (h : IsDist g s v l) : Near g s l v := ⟨l, Nat.le_refl _, h⟩

/-- A vertex not yet reached after `l` levels, with an edge from a vertex within `l`, is on level `l + 1`, and the other on level `l`. -/
theorem dist_of_edge {l v w : Nat} (hv : Near g s l v) (he : Edge g v w) (hw : ¬ Near g s l w) :
    IsDist g s v l ∧ IsDist g s w (l + 1) := by
  obtain ⟨d, h1, h2⟩ := hv
  have hd : d = l := by
    by_contra hne
    apply hw
    have hn : Near g s d v := ⟨d, Nat.le_refl _, h2⟩
    obtain ⟨e, h3, h4⟩ := hn.step he
    exact ⟨e, by omega, h4⟩
  subst hd
  refine ⟨h2, ?_⟩
  rcases near_succ.1 (h2.near.step he) with h | h
  · exact absurd h hw
  · exact h

/-- If a level is empty, all reachable vertices are on the levels before. -/
theorem near_of_empty {l v : Nat} (h : ¬ ∃ w, IsDist g s w (l + 1)) (hr : Reachable g s v) : Near g s l v := by
  obtain ⟨d, hd⟩ := hr.exists_dist
  refine ⟨d, ?_, hd⟩
  by_contra hlt
  obtain ⟨w, hw⟩ := hd.down (j := l + 1) (by omega)
  exact h ⟨w, hw⟩

end NW.Spec
