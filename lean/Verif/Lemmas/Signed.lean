import Verif.Spec.Signed
import Mathlib.Data.Fintype.Pigeonhole

/-! # Walks with signed weights: a walk can be made shorter than the number of vertices -/

namespace NW.Spec

variable {α : Type} {g : Rows α} {wt : Nat × α → Int}

theorem SWalk.append {s u v k l : Nat} {x y : Int} (h : SWalk g wt s u k x) (h' : SWalk g wt u v l y) : SWalk g wt s v (k + l) (x + y) := by
  induction h' with
  | nil => simpa using h
  | @snoc w l y e _ he ih =>
    have := SWalk.snoc ih he
    rw [Int.add_assoc] at this
    exact this

theorem SWalk.reachable {s v k : Nat} {x : Int} (h : SWalk g wt s v k x) : Reachable g s v := by
  induction h with
  | nil => exact ⟨0, .nil⟩
  | snoc _ he ih =>
    obtain ⟨k, hk⟩ := ih
    exact ⟨k + 1, .snoc hk (List.mem_map_of_mem he)⟩

theorem Reachable.swalk (wt : Nat × α → Int) {s v : Nat} (h : Reachable g s v) : ∃ k x, SWalk g wt s v k x := by
  obtain ⟨k, hk⟩ := h
  induction hk with
  | nil => exact ⟨0, 0, .nil⟩
  | snoc _ he ih =>
    obtain ⟨k, x, hx⟩ := ih
    obtain ⟨e, h1, rfl⟩ := List.mem_map.1 he
    exact ⟨_, _, .snoc hx h1⟩

theorem SWalk.lt {s v k : Nat} {x : Int} (hg : InRange g) (hs : s < g.length) (h : SWalk g wt s v k x) : v < g.length := by
  cases h with
  | nil => exact hs
  | snoc _ he => exact hg _ _ (List.mem_map_of_mem he)

/-- The vertices of a walk and the weights of the walks between them. -/
theorem SWalk.positions {s v k : Nat} {x : Int} (h : SWalk g wt s v k x) :
    ∃ (f : Nat → Nat) (c : Nat → Int), f 0 = s ∧ c 0 = 0 ∧ f k = v ∧ c k = x ∧ ∀ i j, i ≤ j → j ≤ k → SWalk g wt (f i) (f j) (j - i) (c j - c i) := by
  induction h with
  | nil =>
    refine ⟨fun _ => s, fun _ => 0, rfl, rfl, rfl, rfl, fun i j h1 h2 => ?_⟩
    have hj : j - i = 0 := by omega
    rw [hj]
    exact .nil
  | @snoc u k x e hw he ih =>
    obtain ⟨f, c, h0, c0, hk, ck, hij⟩ := ih
    refine ⟨fun i => if i ≤ k then f i else e.1, fun i => if i ≤ k then c i else x + wt e, by simpa using h0, by simpa using c0, by simp, by simp, fun i j h1 h2 => ?_⟩
    rcases Nat.lt_or_ge k j with hj | hj
    · have hj' : j = k + 1 := by omega
      subst hj'
      rcases Nat.lt_or_ge k i with hi | hi
      · have : i = k + 1 := by omega
        subst this
        simp only [Nat.sub_self, Int.sub_self]
        exact .nil
      · have hw' := hij i k hi (Nat.le_refl _)
        rw [hk, ck] at hw'
        have h3 := SWalk.snoc hw' he
        simp only [if_pos hi, if_neg (show ¬ k + 1 ≤ k by omega)]
        have e1 : k + 1 - i = k - i + 1 := by omega
        have e2 : x + wt e - c i = x - c i + wt e := by omega
        rw [e1, e2]
        exact h3
    · simp only [if_pos hj, if_pos (Nat.le_trans h1 hj)]
      exact hij i j h1 hj

/-- A walk with at least as many edges as there are vertices contains a cycle. -/
theorem SWalk.cycle {s v k : Nat} {x : Int} (hg : InRange g) (hs : s < g.length) (h : SWalk g wt s v k x) (hk : g.length ≤ k) :
    ∃ u i j l a b c, SWalk g wt s u i a ∧ SWalk g wt u u j b ∧ SWalk g wt u v l c ∧ k = i + j + l ∧ 0 < j ∧ x = a + b + c := by
  obtain ⟨f, c, h0, c0, hfk, hck, hij⟩ := h.positions
  have hlt : ∀ i, i ≤ k → f i < g.length := fun i hi => by
    have := hij 0 i (Nat.zero_le _) hi
    rw [h0] at this
    exact this.lt hg hs
  let F : Fin (k + 1) → Fin g.length := fun i => ⟨f i, hlt i (by omega)⟩
  obtain ⟨i, j, hne, he⟩ := Fintype.exists_ne_map_eq_of_card_lt F (by simp; omega)
  have he' : f i = f j := congrArg Fin.val he
  have main : ∀ i j : Nat, i < j → j ≤ k → f i = f j →
      ∃ u i j l a b c, SWalk g wt s u i a ∧ SWalk g wt u u j b ∧ SWalk g wt u v l c ∧ k = i + j + l ∧ 0 < j ∧ x = a + b + c := by
    intro i j h1 h2 h3
    have w1 := hij 0 i (Nat.zero_le _) (by omega)
    have w2 := hij i j (by omega) h2
    have w3 := hij j k h2 (Nat.le_refl _)
    rw [h0] at w1
    rw [← h3] at w2 w3
    rw [hfk] at w3
    refine ⟨_, _, _, _, _, _, _, w1, w2, w3, by omega, by omega, by omega⟩
  have hvne : (i : Nat) ≠ j := fun h => hne (Fin.ext h)
  rcases Nat.lt_or_gt_of_ne hvne with h1 | h1
  · exact main i j h1 (by omega) he'
  · exact main j i h1 (by omega) he'.symm

/-- For every walk there is one with fewer edges than there are vertices; without negative cycles it does not weigh more. -/
theorem SWalk.shorten {s v k : Nat} {x : Int} (hg : InRange g) (hs : s < g.length) (h : SWalk g wt s v k x) :
    ∃ k' x', k' < g.length ∧ SWalk g wt s v k' x' ∧ (¬ NegativeCycle g wt s → x' ≤ x) := by
  induction k using Nat.strongRecOn generalizing x with
  | ind k ih =>
    rcases Nat.lt_or_ge k g.length with hk | hk
    · exact ⟨k, x, hk, h, fun _ => Int.le_refl _⟩
    · obtain ⟨u, i, j, l, a, b, c, w1, w2, w3, hsum, hj, hx⟩ := h.cycle hg hs hk
      obtain ⟨k', x', h1, h2, h3⟩ := ih (i + l) (by omega) (w1.append w3)
      refine ⟨k', x', h1, h2, fun hn => ?_⟩
      have hb : 0 ≤ b := Int.not_lt.1 fun hb => hn ⟨u, j, b, w1.reachable, w2, hb⟩
      have := h3 hn
      omega

/-- The weight of a walk, from the weights of the edges. -/
theorem SWalk.bounds {W : Int} (hW : ∀ u, ∀ e ∈ g.getD u [], -W ≤ wt e ∧ wt e ≤ W) {s v k : Nat} {x : Int} (h : SWalk g wt s v k x) : -(k * W) ≤ x ∧ x ≤ k * W := by
  induction h with
  | nil => simp
  | @snoc u k x e _ he ih =>
    have := hW u e he
    have e1 : ((k + 1 : Nat) : Int) * W = k * W + W := by rw [Int.natCast_add, Int.add_mul]; simp
    rw [e1]
    omega

end NW.Spec
