import Verif.Model.Apb
import Verif.Lemmas.ListRes

namespace NW.Apb
open Spec

variable {α : Type}

/-- Vertex `v` is marked. -/
def Marked (visited : List Bool) (v : Nat) : Prop := visited[v]? = some true

instance (visited : List Bool) (v : Nat) : Decidable (Marked visited v) := by unfold Marked; infer_instance

/-- The number of vertices without a mark. -/
def fresh (visited : List Bool) : Nat := visited.count false

theorem marked_set {visited : List Bool} {n v : Nat} (hn : n < visited.length) : Marked (visited.set n true) v ↔ v = n ∨ Marked visited v := by
  unfold Marked
  rw [List.getElem?_set]
  by_cases c : n = v
  · subst c; simp [hn]
  · have c' : v ≠ n := fun h => c h.symm
    simp [c, c']

theorem vget_marked {visited : List Bool} {n : Nat} (hn : n < visited.length) : vget visited n = .ok (decide (Marked visited n)) := by
  rw [vget_of_lt hn]
  congr 1
  rw [Bool.eq_iff_iff, decide_eq_true_iff]
  unfold Marked
  rw [List.getElem?_eq_getElem hn, Option.some.injEq]

theorem fresh_set {visited : List Bool} {n : Nat} (hn : n < visited.length) (h : ¬ Marked visited n) : fresh (visited.set n true) + 1 = fresh visited := by
  unfold Marked at h
  rw [List.getElem?_eq_getElem hn] at h
  have hf : visited[n] = false := by simpa using h
  unfold fresh
  rw [List.count_set hn]
  have hp : 0 < visited.count false := List.count_pos_iff.2 (hf ▸ List.getElem_mem hn)
  simp [hf]
  omega

theorem fresh_set_le {visited : List Bool} {n : Nat} (hn : n < visited.length) : fresh (visited.set n true) ≤ fresh visited := by
  by_cases h : Marked visited n
  · have : visited.set n true = visited := by
      unfold Marked at h
      apply List.ext_getElem?
      intro i
      rw [List.getElem?_set]
      by_cases c : n = i
      · subst c; rw [if_pos rfl, if_pos hn, h]
      · simp [c]
    rw [this]; exact Nat.le_refl _
  · have := fresh_set hn h; omega

theorem bfs_edges (l : List Nat) : ∀ (visited : List Bool) (q : List Nat), (∀ n ∈ l, n < visited.length) →
    ∃ visited' new, l.foldlM bfsEdge (visited, q) = .ok (visited', q ++ new) ∧ visited'.length = visited.length ∧
      (∀ v, Marked visited' v ↔ Marked visited v ∨ v ∈ l) ∧ (∀ v, v ∈ new ↔ v ∈ l ∧ ¬ Marked visited v) ∧
      fresh visited' + new.length = fresh visited := by
  induction l with
  | nil => intro visited q _; exact ⟨visited, [], by simp, rfl, by simp, by simp, by simp⟩
  | cons n l ih =>
    intro visited q hl
    have hn := hl n (by simp)
    rw [List.foldlM_cons]
    unfold bfsEdge
    simp only
    rw [vget_marked hn, res_bind_ok]
    by_cases c : Marked visited n
    · simp only [c, decide_true, if_true, res_pure, res_bind_ok]
      obtain ⟨v', new, h1, h2, h3, h4, h5⟩ := ih visited q (fun m hm => hl m (by simp [hm]))
      refine ⟨v', new, h1, h2, ?_, ?_, h5⟩
      · intro v; rw [h3]
        constructor
        · rintro (h | h); exact .inl h; exact .inr (by simp [h])
        · rintro (h | h)
          · exact .inl h
          · rcases List.mem_cons.1 h with rfl | h
            · exact .inl c
            · exact .inr h
      · intro v; rw [h4]
        constructor
        · rintro ⟨h, h'⟩; exact ⟨by simp [h], h'⟩
        · rintro ⟨h, h'⟩
          rcases List.mem_cons.1 h with rfl | h
          · exact absurd c h'
          · exact ⟨h, h'⟩
    · simp only [c, decide_false, Bool.false_eq_true, if_false]
      rw [vset_of_lt hn, res_bind_ok, res_pure, res_bind_ok]
      obtain ⟨v', new, h1, h2, h3, h4, h5⟩ := ih (visited.set n true) (q ++ [n]) (fun m hm => by simpa using hl m (by simp [hm]))
      refine ⟨v', n :: new, ?_, by simpa using h2, ?_, ?_, ?_⟩
      · rw [List.append_assoc, List.singleton_append] at h1
        exact h1
      · intro v; rw [h3, marked_set hn, List.mem_cons]
        constructor
        · rintro ((h | h) | h)
          · exact .inr (.inl h)
          · exact .inl h
          · exact .inr (.inr h)
        · rintro (h | h | h)
          · exact .inl (.inr h)
          · exact .inl (.inl h)
          · exact .inr h
      · intro v; rw [List.mem_cons, h4, marked_set hn, List.mem_cons]
        constructor
        · rintro (rfl | ⟨h, h'⟩)
          · exact ⟨.inl rfl, c⟩
          · exact ⟨.inr h, fun k => h' (.inr k)⟩
        · rintro ⟨rfl | h, h'⟩
          · exact .inl rfl
          · by_cases d : v = n
            · exact .inl d
            · exact .inr ⟨h, fun k => k.elim d h'⟩
      · have := fresh_set hn c
        simp only [List.length_cons]; omega

theorem dfs_edges (visited : List Bool) (l : List Nat) : ∀ (q : List Nat), (∀ n ∈ l, n < visited.length) →
    l.foldlM (dfsEdge visited) q = .ok ((l.filter fun n => ¬ Marked visited n).reverse ++ q) := by
  induction l with
  | nil => intro q _; rfl
  | cons n l ih =>
    intro q hl
    have hn := hl n (by simp)
    rw [List.foldlM_cons]
    unfold dfsEdge
    rw [vget_marked hn, res_bind_ok]
    by_cases c : Marked visited n
    · simp only [c, decide_true, if_true, res_pure, res_bind_ok]
      have := ih q (fun m hm => hl m (by simp [hm]))
      unfold dfsEdge at this
      simp only [res_pure] at this
      rw [this]
      simp [c]
    · simp only [c, decide_false, Bool.false_eq_true, if_false, res_pure, res_bind_ok]
      have := ih (n :: q) (fun m hm => hl m (by simp [hm]))
      unfold dfsEdge at this
      simp only [res_pure] at this
      rw [this]
      simp [c]

end NW.Apb
