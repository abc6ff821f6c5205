import Verif.Lemmas.PathCount
import Mathlib.Algebra.BigOperators.Field

/-! # Lemmas: the recursion for the dependencies of a source -/

namespace NW.Spec

variable {α : Type}

/-- One target's share in `acc`. -/
def term (g : Rows α) (s : Nat) (D : Nat → Option Nat) (v t : Nat) : ℚ :=
  match D v, D t with
  | some i, some d => if i ≤ d then (nw g i s v : ℚ) * (nw g (d - i) v t : ℚ) / (nw g d s t : ℚ) else 0
  | _, _ => 0

/-- One plus the dependency of `s` on `v`. -/
def acc (g : Rows α) (s : Nat) (D : Nat → Option Nat) (v : Nat) : ℚ := ∑ t ∈ Finset.range g.length, term g s D v t

variable {g : Rows α} {s : Nat} {D : Nat → Option Nat}

theorem throughFraction_eq (hg : InRange g) (hs : s < g.length) (hD : ∀ v d, D v = some d ↔ IsDist g s v d) (v t : Nat) :
    throughFraction g s t v = term g s D v t := by
  unfold throughFraction term
  cases ht : D t with
  | none =>
    have : ¬ Reachable g s t := fun h => by
      obtain ⟨d, hd⟩ := h.exists_dist
      rw [(hD t d).2 hd] at ht; cases ht
    rw [shortestPaths_nil hg this]
    cases D v <;> simp
  | some d =>
    have hd := (hD t d).1 ht
    rw [shortestPaths_eq hg hs hd]
    cases hv : D v with
    | none =>
      have : (paths g d s t).filter (fun p => v ∈ p) = [] := by
        rw [List.filter_eq_nil_iff]
        intro p hp hm
        obtain ⟨j, hj⟩ := List.getElem?_of_mem (by simpa using hm : v ∈ p)
        obtain ⟨-, h2, -⟩ := walksFrom_split hp hj
        obtain ⟨d', hd'⟩ := Reachable.exists_dist ⟨j, h2⟩
        rw [(hD v d').2 hd'] at hv; cases hv
      rw [this]; simp
    | some i =>
      rw [through_count hd ((hD v i).1 hv)]
      simp only []
      split
      · rw [Nat.cast_mul]; rfl
      · simp

theorem sum_filter_list (n : Nat) (p : Nat → Bool) (f : Nat → ℚ) :
    (((List.range n).filter p).map f).sum = ∑ t ∈ Finset.range n, if p t then f t else 0 := by
  induction n with
  | zero => simp
  | succ n ih =>
    rw [List.range_succ, List.filter_append, List.map_append, List.sum_append, ih, Finset.sum_range_succ]
    congr 1
    by_cases h : p n <;> simp [h]

theorem nw_dist_ne (hg : InRange g) {v d : Nat} (h : IsDist g s v d) : (nw g d s v : ℚ) ≠ 0 := by
  have := (nw_pos hg).2 h.1
  exact_mod_cast Nat.pos_iff_ne_zero.1 this

theorem acc_eq_dependency (hg : InRange g) (hs : s < g.length) (hD : ∀ v d, D v = some d ↔ IsDist g s v d) {v i : Nat} (hv : D v = some i) :
    acc g s D v = 1 + dependency g s v := by
  have hdv := (hD v i).1 hv
  have hvn : v < g.length := hdv.1.lt hg hs
  unfold acc dependency
  rw [sum_filter_list]
  have h1 : ∀ t ∈ Finset.range g.length, term g s D v t = (if t = v then 1 else 0) + (if decide (t ≠ v) then throughFraction g s t v else 0) := by
    intro t _
    rw [throughFraction_eq hg hs hD]
    by_cases c : t = v
    · subst c
      simp only [if_pos, ne_eq, not_true_eq_false, decide_false, Bool.false_eq_true, if_false, add_zero]
      unfold term
      rw [hv]
      simp only [Nat.le_refl, if_pos, Nat.sub_self, nw_zero, Nat.cast_one, mul_one]
      exact div_self (nw_dist_ne hg hdv)
    · simp [c]
  rw [Finset.sum_congr rfl h1, Finset.sum_add_distrib, Finset.sum_ite_eq', if_pos (Finset.mem_range.2 hvn)]

theorem dependency_unreachable (hg : InRange g) (hs : s < g.length) (hD : ∀ v d, D v = some d ↔ IsDist g s v d) {v : Nat} (hv : D v = none) :
    dependency g s v = 0 := by
  unfold dependency
  rw [sum_filter_list]
  apply Finset.sum_eq_zero
  intro t _
  rw [throughFraction_eq hg hs hD, term, hv]
  simp

theorem term_rec (hg : InRange g) (hD : ∀ v d, D v = some d ↔ IsDist g s v d) {v i : Nat} (hv : D v = some i) (t : Nat) :
    term g s D v t = (if t = v then 1 else 0) + ∑ w ∈ Finset.range g.length,
      if D w = some (i + 1) then (mult g v w : ℚ) * ((nw g i s v : ℚ) / (nw g (i + 1) s w : ℚ)) * term g s D w t else 0 := by
  have hdv := (hD v i).1 hv
  cases ht : D t with
  | none =>
    have hne : t ≠ v := by rintro rfl; rw [hv] at ht; cases ht
    rw [if_neg hne, Finset.sum_eq_zero]
    · unfold term; rw [ht, hv]; simp
    · intro w _
      split
      · rename_i hw
        have : term g s D w t = 0 := by unfold term; rw [ht, hw]
        rw [this, mul_zero]
      · rfl
  | some d =>
    have hdt := (hD t d).1 ht
    rcases Nat.lt_or_ge i d with hid | hid
    · have hne : t ≠ v := by rintro rfl; rw [hv] at ht; cases ht; omega
      rw [if_neg hne, zero_add]
      have h0 : term g s D v t = (nw g i s v : ℚ) * (nw g (d - i) v t : ℚ) / (nw g d s t : ℚ) := by
        unfold term; rw [hv, ht]; simp only []; rw [if_pos (by omega)]
      rw [h0, show d - i = (d - i - 1) + 1 by omega, nw_first hg, Nat.cast_sum, Finset.mul_sum, Finset.sum_div]
      refine Finset.sum_congr rfl fun w _ => ?_
      split
      · rename_i hw
        have h1 : term g s D w t = (nw g (i + 1) s w : ℚ) * (nw g (d - (i + 1)) w t : ℚ) / (nw g d s t : ℚ) := by
          unfold term; rw [hw, ht]; simp only []; rw [if_pos (by omega)]
        have n1 := nw_dist_ne hg ((hD w (i + 1)).1 hw)
        rw [h1, show d - i - 1 = d - (i + 1) by omega, Nat.cast_mul]
        have n2 := nw_dist_ne hg hdt
        field_simp
      · rename_i hw
        have hz : mult g v w * nw g (d - i - 1) w t = 0 := by
          by_contra hc
          have m1 : 0 < mult g v w := Nat.pos_iff_ne_zero.2 fun e => hc (by rw [e, Nat.zero_mul])
          have m2 : 0 < nw g (d - i - 1) w t := Nat.pos_iff_ne_zero.2 fun e => hc (by rw [e, Nat.mul_zero])
          apply hw
          refine (hD w (i + 1)).2 ⟨.snoc hdv.1 (mult_pos.1 m1), ?_⟩
          intro k hk
          have := hdt.2 _ (hk.append ((nw_pos hg).1 m2))
          omega
        rw [hz]; simp
    · rw [Finset.sum_eq_zero, add_zero]
      · unfold term
        rw [hv, ht]
        simp only []
        by_cases c : t = v
        · subst c
          rw [hv] at ht; cases ht
          simp only [Nat.le_refl, if_pos, Nat.sub_self, nw_zero, Nat.cast_one, mul_one]
          exact div_self (nw_dist_ne hg hdv)
        · rw [if_neg c]
          split
          · have : d = i := by omega
            subst this
            rw [Nat.sub_self, nw_zero, if_neg (fun h => c h.symm)]
            simp
          · rfl
      · intro w _
        split
        · rename_i hw
          have : term g s D w t = 0 := by
            unfold term; rw [ht, hw]; simp only []; rw [if_neg (by omega)]
          rw [this, mul_zero]
        · rfl

/-- Brandes' recursion. -/
theorem acc_rec (hg : InRange g) (hs : s < g.length) (hD : ∀ v d, D v = some d ↔ IsDist g s v d) {v i : Nat} (hv : D v = some i) :
    acc g s D v = 1 + ∑ w ∈ Finset.range g.length,
      if D w = some (i + 1) then (mult g v w : ℚ) * ((nw g i s v : ℚ) / (nw g (i + 1) s w : ℚ)) * acc g s D w else 0 := by
  have hvn : v < g.length := ((hD v i).1 hv).1.lt hg hs
  unfold acc
  rw [Finset.sum_congr rfl fun t _ => term_rec hg hD hv t, Finset.sum_add_distrib, Finset.sum_ite_eq', if_pos (Finset.mem_range.2 hvn),
    Finset.sum_comm]
  congr 1
  refine Finset.sum_congr rfl fun w _ => ?_
  split
  · rw [Finset.mul_sum]
  · simp

end NW.Spec
