import Verif.Model.ConfigModel
import Mathlib.Data.List.Basic
import Mathlib.Tactic.Common

/-! # Properties: configuration_model (C78) -/

namespace NW.ConfigModel
open Run

/-- The edge list has the prescribed degrees: vertex `i` of the first set is the source of `a[i]` edges, vertex `j` of the second the target of `b[j]`, and there are no
other edges. -/
def HasDegrees (a b : List Nat) (es : List (Nat × Nat)) : Prop :=
  (∀ i, (es.map Prod.fst).count i = a.getD i 0) ∧ ∀ j, (es.map Prod.snd).count j = b.getD j 0

/-- All degrees are zero except perhaps the last one. -/
def OnlyLast (a : List Nat) : Prop := ∀ i, i + 1 < a.length → a.getD i 0 = 0

instance (a : List Nat) : Decidable (OnlyLast a) := decidable_of_iff (∀ i < a.length, i + 1 < a.length → a.getD i 0 = 0)
  ⟨fun h i hi => h i (Nat.lt_of_succ_lt hi) hi, fun h i _ hi => h i hi⟩

theorem fold_zeros (stubs : List Nat) (l : List Nat) (h : ∀ x ∈ l, x = 0) (k : Nat) : (l.zipIdx k).foldlM fillStep (stubs, 0) = .ok (stubs, 0) := by
  induction l generalizing k with
  | nil => rfl
  | cons x xs ih =>
    have hx : x = 0 := h x (by simp)
    subst hx
    rw [List.zipIdx_cons, List.foldlM_cons]
    have : fillStep (stubs, 0) (0, k) = .ok (stubs, 0) := by simp [fillStep]
    rw [this, res_bind_ok]
    exact ih (fun y hy => h y (List.mem_cons_of_mem _ hy)) (k + 1)

theorem fold_cons_fault {stubs : List Nat} {c : Nat} {x : Nat} {xs : List Nat} {k : Nat} (h : stubs.length < c + (c + x)) :
    ((x :: xs).zipIdx k).foldlM fillStep (stubs, c) = .error .outOfBounds := by
  rw [List.zipIdx_cons, List.foldlM_cons]
  have : fillStep (stubs, c) (x, k) = .error .outOfBounds := by simp [fillStep]; omega
  rw [this]; rfl

/-- Once something has been written, filling the rest of the stubs runs out of bounds. -/
theorem fold_fault (xs : List Nat) : ∀ (stubs : List Nat) (c k : Nat), 0 < c → stubs.length = c + xs.sum → xs ≠ [] →
    (xs.zipIdx k).foldlM fillStep (stubs, c) = .error .outOfBounds := by
  induction xs with
  | nil => intro _ _ _ _ _ h; exact absurd rfl h
  | cons x xs ih =>
    intro stubs c k hc hl _
    by_cases hb : stubs.length < c + (c + x)
    · exact fold_cons_fault hb
    · rw [List.zipIdx_cons, List.foldlM_cons]
      have e : fillStep (stubs, c) (x, k) = .ok (stubs.take c ++ List.replicate (c + (c + x) - c) k ++ stubs.drop (c + (c + x)), c + x) := by
        simp only [fillStep]
        rw [if_pos (by omega)]; rfl
      rw [e, res_bind_ok]
      rw [List.sum_cons] at hl
      refine ih _ _ _ (by omega) ?_ ?_
      · simp only [List.length_append, List.length_take, List.length_replicate, List.length_drop]; omega
      · rintro rfl
        simp at hl; omega

theorem getD_zero_of_sum {a : List Nat} (h : a.sum = 0) : ∀ x ∈ a, x = 0 := by
  intro x hx
  induction a with
  | nil => cases hx
  | cons y ys ih =>
    rw [List.sum_cons] at h
    rcases List.mem_cons.1 hx with rfl | hx
    · omega
    · exact ih (by omega) hx

theorem populate_zero (a : List Nat) (h : a.sum = 0) : populate a a.sum = .ok [] := by
  unfold populate
  rw [h, fold_zeros _ a (getD_zero_of_sum h)]; rfl

theorem onlyLast_cons {x : Nat} {xs : List Nat} (h : xs ≠ []) : OnlyLast (x :: xs) ↔ x = 0 ∧ OnlyLast xs := by
  have hl := List.length_pos_of_ne_nil h
  constructor
  · intro H
    refine ⟨by simpa using H 0 (by simp; exact hl), fun i hi => by simpa using H (i + 1) (by simpa using hi)⟩
  · rintro ⟨rfl, H⟩ i hi
    cases i with
    | zero => rfl
    | succ i => simpa using H i (by simpa using hi)

theorem fold_last (a : List Nat) : ∀ k, 0 < a.sum → OnlyLast a →
    (a.zipIdx k).foldlM fillStep (List.replicate a.sum 0, 0) = .ok (List.replicate a.sum (k + (a.length - 1)), a.sum) := by
  induction a with
  | nil => intro k h; simp at h
  | cons x xs ih =>
    intro k h hl
    cases xs with
    | nil => simp [fillStep, List.foldlM_cons, List.zipIdx]
    | cons y ys =>
      obtain ⟨rfl, h2⟩ := (onlyLast_cons (by simp)).1 hl
      rw [List.zipIdx_cons, List.foldlM_cons]
      have : fillStep (List.replicate (0 :: y :: ys).sum 0, 0) (0, k) = .ok (List.replicate (y :: ys).sum 0, 0) := by simp [fillStep]
      rw [this, res_bind_ok, ih (k + 1) (by simpa using h) h2]
      simp; omega

theorem fold_not_last (a : List Nat) : ∀ k, ¬ OnlyLast a →
    (a.zipIdx k).foldlM fillStep (List.replicate a.sum 0, 0) = .error .outOfBounds := by
  induction a with
  | nil => intro k h; exact absurd (fun i hi => by simp at hi) h
  | cons x xs ih =>
    intro k h
    have hne : xs ≠ [] := by
      rintro rfl
      exact h fun i hi => by simp at hi
    rw [onlyLast_cons hne] at h
    by_cases hx : x = 0
    · subst hx
      rw [List.zipIdx_cons, List.foldlM_cons]
      have : fillStep (List.replicate (0 :: xs).sum 0, 0) (0, k) = .ok (List.replicate xs.sum 0, 0) := by simp [fillStep]
      rw [this, res_bind_ok]
      exact ih (k + 1) (fun h' => h ⟨rfl, h'⟩)
    · rw [List.zipIdx_cons, List.foldlM_cons]
      have : fillStep (List.replicate (x :: xs).sum 0, 0) (x, k) = .ok (List.replicate x k ++ List.replicate xs.sum 0, x) := by
        simp [fillStep]
      rw [this, res_bind_ok]
      exact fold_fault xs _ _ _ (by omega) (by simp) hne

theorem populate_last (a : List Nat) (h : 0 < a.sum) (hl : OnlyLast a) : populate a a.sum = .ok (List.replicate a.sum (a.length - 1)) := by
  unfold populate
  rw [fold_last a 0 h hl, Nat.zero_add]; rfl

theorem populate_fault (a : List Nat) (hl : ¬ OnlyLast a) : populate a a.sum = .error .outOfBounds := by
  unfold populate
  rw [fold_not_last a 0 hl]; rfl

theorem sum_last {a : List Nat} (h : 0 < a.sum) (hl : OnlyLast a) : ∀ i, a.getD i 0 = if i = a.length - 1 then a.sum else 0 := by
  induction a with
  | nil => simp at h
  | cons x xs ih =>
    intro i
    cases xs with
    | nil => cases i <;> simp
    | cons y ys =>
      obtain ⟨rfl, h2⟩ := (onlyLast_cons (by simp)).1 hl
      cases i with
      | zero => simp
      | succ i =>
        have := ih (by simpa using h) h2 i
        simp only [List.getD_cons_succ, this]
        simp

/-- C78, for degree sequences with equal sums in which no entry but the last is positive: every execution returns an edge list with the prescribed degrees.  Missing,
because false (`configuration_model_overrun`): all other sequences with equal sums. -/
theorem configuration_model_partial (a b : List Nat) (hsum : a.sum = b.sum) (ha : OnlyLast a) (hb : OnlyLast b) :
    Gives (configurationModel a b) (HasDegrees a b) := by
  unfold configurationModel
  rw [if_neg (by simpa using hsum)]
  by_cases h0 : a.sum = 0
  · have hb0 : b.sum = 0 := hsum ▸ h0
    refine (gives_lift (populate_zero a h0) (Q := fun l => l = []) rfl).bind ?_
    rintro l rfl
    refine (gives_lift (by rw [hsum]; exact populate_zero b hb0) (Q := fun l => l = []) rfl).bind ?_
    rintro l rfl
    refine (gives_choose (Q := fun l => l = []) ⟨[], .nil⟩ fun l hl => hl.eq_nil).bind ?_
    rintro l rfl
    refine (gives_choose (Q := fun l => l = []) ⟨[], .nil⟩ fun l hl => hl.eq_nil).bind ?_
    rintro l rfl
    have hz : ∀ (c : List Nat), c.sum = 0 → ∀ i, c.getD i 0 = 0 := by
      intro c hc i
      by_cases hi : i < c.length
      · have := getD_zero_of_sum hc _ (List.getElem_mem hi)
        rw [List.getD_eq_getElem?_getD, List.getElem?_eq_getElem hi]; simpa using this
      · simp [List.getD_eq_getElem?_getD, List.getElem?_eq_none (Nat.le_of_not_lt hi)]
    exact gives_pure ⟨fun i => by simpa using (hz a h0 i).symm, fun i => by simpa using (hz b hb0 i).symm⟩
  · have hpa : 0 < a.sum := Nat.pos_of_ne_zero h0
    have hpb : 0 < b.sum := hsum ▸ hpa
    refine (gives_lift (populate_last a hpa ha) (Q := fun l => l = List.replicate a.sum (a.length - 1)) rfl).bind ?_
    rintro l rfl
    refine (gives_lift (by rw [hsum]; exact populate_last b hpb hb) (Q := fun l => l = List.replicate b.sum (b.length - 1)) rfl).bind ?_
    rintro l rfl
    refine (gives_choose (Q := fun l => l = List.replicate a.sum (a.length - 1)) ⟨_, .refl _⟩ fun l hl => List.perm_replicate.1 hl).bind ?_
    rintro l rfl
    refine (gives_choose (Q := fun l => l = List.replicate b.sum (b.length - 1)) ⟨_, .refl _⟩ fun l hl => List.perm_replicate.1 hl).bind ?_
    rintro l rfl
    refine gives_pure ⟨fun i => ?_, fun i => ?_⟩
    · rw [sum_last hpa ha i, ← hsum]
      have e : ((List.replicate a.sum (a.length - 1)).zip (List.replicate a.sum (b.length - 1))).map Prod.fst = List.replicate a.sum (a.length - 1) := by simp
      rw [e, List.count_replicate]
      simp only [beq_iff_eq]
      by_cases c : i = a.length - 1
      · rw [if_pos c, if_pos c.symm]
      · rw [if_neg c, if_neg (Ne.symm c)]
    · rw [sum_last hpb hb i, ← hsum]
      have e : ((List.replicate a.sum (a.length - 1)).zip (List.replicate a.sum (b.length - 1))).map Prod.snd = List.replicate a.sum (b.length - 1) := by simp
      rw [e, List.count_replicate]
      simp only [beq_iff_eq]
      by_cases c : i = b.length - 1
      · rw [if_pos c, if_pos c.symm]
      · rw [if_neg c, if_neg (Ne.symm c)]

example : ([0, 0, 3] : List Nat).sum = ([0, 3] : List Nat).sum ∧ OnlyLast [0, 0, 3] ∧ OnlyLast [0, 3] := by decide

/-- C78 fails for all other sequences with equal sums: whenever a vertex other than the last of its set is to have an edge, the stubs are written out of bounds. -/
theorem configuration_model_overrun (a b : List Nat) (hsum : a.sum = b.sum) (h : ¬ OnlyLast a ∨ ¬ OnlyLast b) :
    Faults (configurationModel a b) .outOfBounds := by
  unfold configurationModel
  rw [if_neg (by simpa using hsum)]
  have flt : ∀ {r : Res (List Nat)} {β : Type} (k : List Nat → Run β), r = .error .outOfBounds → Faults (Run.lift r >>= k) .outOfBounds := by
    intro r β k hr
    subst hr
    exact Faults.bind ⟨⟨_, rfl⟩, fun o ho => ho⟩
  have h0 : ∀ c : List Nat, ¬ OnlyLast c → c.sum ≠ 0 := by
    intro c hc hz
    refine hc fun i hi => ?_
    have hi' := Nat.lt_of_succ_lt hi
    have := getD_zero_of_sum hz _ (List.getElem_mem hi')
    rw [List.getD_eq_getElem?_getD, List.getElem?_eq_getElem hi']; simpa using this
  by_cases ha : OnlyLast a
  · have hb := h.resolve_left (not_not.2 ha)
    have hpa : 0 < a.sum := Nat.pos_of_ne_zero (hsum ▸ h0 b hb)
    refine (gives_lift (populate_last a hpa ha) (Q := fun _ => True) trivial).bind_faults fun l _ => ?_
    exact flt _ (by rw [hsum]; exact populate_fault b hb)
  · exact flt _ (populate_fault a ha)

example : ([1, 2] : List Nat).sum = ([3] : List Nat).sum ∧ ¬ OnlyLast [1, 2] := by decide

/-- Sequences with different sums give an empty edge list. -/
theorem configuration_model_sums_differ (a b : List Nat) (h : a.sum ≠ b.sum) : ∀ o, configurationModel a b o ↔ o = .ok [] := by
  unfold configurationModel
  rw [if_pos h]
  exact fun o => Iff.rfl

end NW.ConfigModel
