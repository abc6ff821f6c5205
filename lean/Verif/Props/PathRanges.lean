import Verif.Model.PathRanges
import Verif.Lemmas.ListRes
import Mathlib.Algebra.Order.Floor.Ring
import Mathlib.Algebra.Order.Field.Basic
import Mathlib.Data.Rat.Cast.Order
import Mathlib.Tactic.Linarith

/-!
# C59, C60: `reverse_path` and `random_range`
-/

namespace NW.PathRanges
open Spec

variable {α : Type}

theorem follow_succ {par : Nat → Option Nat} {k v : Nat} : follow par (k + 1) v = (follow par k v).bind par := by
  induction k generalizing v with
  | zero => simp only [follow, Option.bind_some]; cases par v <;> rfl
  | succ k ih =>
    rw [follow]
    cases h : par v with
    | none => simp [follow, h]
    | some w =>
      have : follow par (k + 1) v = follow par k w := by rw [follow, h]; rfl
      rw [this]
      exact ih

/-- C59 (what holds).  Missing: `start = stop` (below).  If `stop` is met for the first time after `k + 1` steps from `start`, the range delivers
`start` and the vertices after 1, …, k steps. -/
theorem reverse_path_partial (pred : List Nat) (first stop k : Nat) (hk : follow (fun v => pred[v]?) (k + 1) first = some stop)
    (hmin : ∀ i, 0 < i → i ≤ k → follow (fun v => pred[v]?) i first ≠ some stop) :
    ∃ st, Loop (rRound pred stop) (rStart first fresh) (.ok st) ∧ st.out.length = k + 1 ∧ ∀ i, i ≤ k → st.out[i]? = follow (fun v => pred[v]?) i first := by
  have hdef : ∀ i, i ≤ k + 1 → ∃ v, follow (fun v => pred[v]?) i first = some v := by
    intro i hi
    cases h : follow (fun v => pred[v]?) i first with
    | some v => exact ⟨v, rfl⟩
    | none =>
      exfalso
      have : ∀ j, follow (fun v => pred[v]?) (i + j) first = none := by
        intro j
        induction j with
        | zero => exact h
        | succ j ih => rw [← Nat.add_assoc, follow_succ, ih]; rfl
      have h2 := this (k + 1 - i)
      rw [Nat.add_sub_cancel' hi, hk] at h2
      cases h2
  refine Loop.of_rank (fun m st => ∃ j, m + j = k + 1 ∧ follow (fun v => pred[v]?) j first = some st.curr ∧ st.done = decide (j = k + 1) ∧ st.out.length = j ∧
    ∀ i, i < j → st.out[i]? = follow (fun v => pred[v]?) i first) _ ?_ (k := k + 1) ⟨0, rfl, rfl, by simp [rStart, fresh], rfl, fun i hi => absurd hi (by omega)⟩
  rintro m st ⟨j, hm, hc, hd, hl, ho⟩
  by_cases hj : j = k + 1
  · left
    refine ⟨st, by unfold rRound; rw [hd, decide_eq_true hj, if_pos rfl]; rfl, by omega, fun i hi => ho i (by omega)⟩
  · right
    obtain ⟨c, hc'⟩ := hdef (j + 1) (by omega)
    have hp : pred[st.curr]? = some c := by rw [follow_succ, hc] at hc'; exact hc'
    have hg : vget pred st.curr = .ok c := by unfold vget; rw [hp]
    refine ⟨⟨c, if c = stop then true else st.done, st.out ++ [st.curr]⟩, k + 1 - (j + 1), by unfold rRound; rw [hd, decide_eq_false hj, hg]; rfl, by omega, j + 1, by omega, hc', ?_,
      by simp [hl], ?_⟩
    · dsimp only
      rw [hd, decide_eq_false hj]
      by_cases hjk : j = k
      · subst hjk; rw [hk] at hc'; cases hc'; simp
      · have : c ≠ stop := by
          intro e; subst e
          exact hmin (j + 1) (by omega) (by omega) hc'
        rw [if_neg this]
        simp [hjk]
    · intro i hi
      dsimp only
      rcases Nat.lt_or_ge i j with h | h
      · rw [List.getElem?_append_left (by omega)]; exact ho i h
      · have : i = j := by omega
        subst this
        rw [List.getElem?_append_right (by omega), hl, Nat.sub_self, hc]; rfl

/-- C59 fails for `start = stop`: the vertices before `stop` are none, but a run that ends delivers at least `start`. -/
theorem reverse_path_start_eq_stop (pred : List Nat) (stop : Nat) {st : RSt} (h : Loop (rRound pred stop) (rStart stop fresh) (.ok st)) : stop ∈ st.out := by
  have key : ∀ s o, Loop (rRound pred stop) s o → ∀ st, o = .ok st → ∀ x ∈ s.out, x ∈ st.out := by
    intro s o hl
    induction hl with
    | @done s r hb =>
      intro st e x hx
      cases e
      unfold rRound at hb
      split at hb
      · cases hb; exact hx
      · cases hg : vget pred s.curr with
        | error e => rw [hg] at hb; cases hb
        | ok c => rw [hg] at hb; cases hb
    | fault hb => intro st e; cases e
    | @step s s' o hb _ ih =>
      intro st e x hx
      refine ih st e x ?_
      unfold rRound at hb
      split at hb
      · cases hb
      · cases hg : vget pred s.curr with
        | error e => rw [hg] at hb; cases hb
        | ok c => rw [hg] at hb; cases hb; simp [hx]
  cases h with
  | done hb =>
    exfalso
    unfold rRound rStart fresh at hb
    cases hg : vget pred stop with
    | error e => simp only [Bool.false_eq_true, if_false, hg] at hb; cases hb
    | ok c => simp only [Bool.false_eq_true, if_false, hg] at hb; cases hb
  | @step _ s' _ hb hl =>
    refine key _ _ hl st rfl stop ?_
    unfold rRound rStart fresh at hb
    cases hg : vget pred stop with
    | error e => simp only [Bool.false_eq_true, if_false, hg] at hb; cases hb
    | ok c => simp only [Bool.false_eq_true, if_false, hg] at hb; cases hb; simp

/-- C59: the flag is not reset: iterating the same range again delivers nothing. -/
theorem reverse_path_second_empty (pred : List Nat) (first stop : Nat) {st : RSt} (h : Loop (rRound pred stop) (rStart first fresh) (.ok st)) :
    ∃ st', Loop (rRound pred stop) (rStart first st.done) (.ok st') ∧ st'.out = [] := by
  have key : ∀ s o, Loop (rRound pred stop) s o → ∀ st, o = .ok st → st.done = true := by
    intro s o hl
    induction hl with
    | @done s r hb =>
      intro st e
      cases e
      unfold rRound at hb
      split at hb
      · rename_i hd; cases hb; exact hd
      · cases hg : vget pred s.curr with
        | error e => rw [hg] at hb; cases hb
        | ok c => rw [hg] at hb; cases hb
    | fault hb => intro st e; cases e
    | step _ _ ih => exact ih
  rw [key _ _ h st rfl]
  exact ⟨rStart first true, .done (by simp [rRound, rStart]), rfl⟩

/-- The path 4 → 2 → 1 → 0 towards 0, and from 0 to 0. -/
example : (∃ st, Loop (rRound [0, 0, 1, 1, 2] 0) (rStart 4 fresh) (.ok st) ∧ st.out = [4, 2, 1]) ∧
    (∃ st, Loop (rRound [0, 0, 1, 1, 2] 0) (rStart 0 fresh) (.ok st) ∧ st.out = [0]) ∧
    follow (fun v => [0, 0, 1, 1, 2][v]?) 3 4 = some 0 :=
  ⟨⟨_, Loop.of_runFuel (n := 10) rfl, rfl⟩, ⟨_, Loop.of_runFuel (n := 10) rfl, rfl⟩, rfl⟩

/-! ## random_range -/

/-- What `std::uniform_real_distribution<double>(0, 1.0)` can return. -/
def Dice (dice : Nat → ℚ) : Prop := ∀ i, 0 ≤ dice i ∧ dice i < 1

theorem pick_lt {n : Nat} (hn : 0 < n) {d : ℚ} (h0 : 0 ≤ d) (h1 : d < 1) : (⌊(n : ℚ) * d⌋).toNat < n := by
  have hn' : (0 : ℚ) < (n : ℚ) := by exact_mod_cast hn
  have h2 : ⌊(n : ℚ) * d⌋ < (n : ℤ) := by
    rw [Int.floor_lt]
    calc (n : ℚ) * d < (n : ℚ) * 1 := by exact mul_lt_mul_of_pos_left h1 hn'
      _ = ((n : ℤ) : ℚ) := by simp
  have h3 : 0 ≤ ⌊(n : ℚ) * d⌋ := Int.floor_nonneg.2 (mul_nonneg hn'.le h0)
  omega

/-- The steps of a walk: consecutive vertices are joined by edges. -/
def IsWalk (g : Rows α) (vs : List Nat) : Prop := ∀ i a b, vs[i]? = some a → vs[i + 1]? = some b → Edge g a b

/-- C60: for every sequence of random numbers the range delivers `n` vertices, the first one first, and each is a neighbour of the one before, provided every vertex that can be reached has a neighbour. -/
theorem random_range_walk (g : Rows α) (n first : Nat) (dice : Nat → ℚ) (hd : Dice dice) (hout : ∀ v, Reachable g first v → ∃ w, Edge g v w) :
    ∃ out, Loop (wRound g dice) (wStart first n) (.ok out) ∧ out.length = n ∧ (0 < n → out[0]? = some first) ∧ IsWalk g out := by
  refine Loop.of_rank (fun m st => m = st.left ∧ st.left + st.out.length = n ∧ Reachable g first st.cur ∧ IsWalk g (st.out ++ [st.cur]) ∧ (st.out ++ [st.cur])[0]? = some first) _ ?_
    (k := n) ⟨rfl, rfl, ⟨0, .nil⟩, ?_, rfl⟩
  · rintro m st ⟨hm, hn, ⟨d, hr⟩, hw, hf⟩
    by_cases hl : st.left = 0
    · left
      refine ⟨st.out, by unfold wRound; rw [if_pos hl]; rfl, by omega, ?_, ?_⟩
      · intro h0
        rwa [List.getElem?_append_left (by omega)] at hf
      · intro i a b ha hb
        obtain ⟨h1, -⟩ := List.getElem?_eq_some_iff.1 ha
        obtain ⟨h2, -⟩ := List.getElem?_eq_some_iff.1 hb
        exact hw i a b (by rw [List.getElem?_append_left h1]; exact ha) (by rw [List.getElem?_append_left h2]; exact hb)
    · right
      obtain ⟨w, hew⟩ := hout _ ⟨d, hr⟩
      have hcl := hew.src_lt
      have hpos : 0 < (g[st.cur]'hcl).length := by
        unfold Edge nbrs at hew
        rw [List.getD_eq_getElem?_getD, List.getElem?_eq_getElem hcl] at hew
        obtain ⟨x, hx, -⟩ := List.mem_map.1 hew
        exact List.length_pos_of_mem hx
      have hpk := pick_lt hpos (hd st.throws).1 (hd st.throws).2
      set pk := (⌊((g[st.cur]'hcl).length : ℚ) * dice st.throws⌋).toNat with hpkd
      have he : Edge g st.cur ((g[st.cur]'hcl)[pk]'hpk).1 := by
        unfold Edge nbrs
        rw [List.getD_eq_getElem?_getD, List.getElem?_eq_getElem hcl]
        exact List.mem_map_of_mem (List.getElem_mem hpk)
      refine ⟨⟨((g[st.cur]'hcl)[pk]'hpk).1, st.left - 1, st.throws + 1, st.out ++ [st.cur]⟩, st.left - 1, ?_, by omega, rfl, ?_, ⟨_, hr.snoc he⟩, ?_, ?_⟩
      · unfold wRound
        rw [if_neg hl, vget_of_lt hcl, res_bind_ok, ← hpkd, vget_of_lt hpk, res_bind_ok]; rfl
      · simp; omega
      · intro i a b ha hb
        dsimp only at ha hb
        rcases Nat.lt_trichotomy (i + 1) (st.out ++ [st.cur]).length with h | h | h
        · rw [List.getElem?_append_left (by omega)] at ha
          rw [List.getElem?_append_left h] at hb
          exact hw i a b ha hb
        · rw [List.getElem?_append_right (by omega), h, Nat.sub_self] at hb
          rw [List.length_append, List.length_singleton] at h
          rw [List.getElem?_append_left (by simp; omega), List.getElem?_append_right (by omega), show i - st.out.length = 0 by omega] at ha
          simp only [List.getElem?_cons_zero, Option.some.injEq] at ha hb
          subst ha hb
          exact he
        · rw [List.getElem?_eq_none (by simp at h ⊢; omega)] at hb
          cases hb
      · dsimp only
        rw [List.getElem?_append_left (by simp)]
        exact hf
  · intro i a b ha hb
    rw [List.getElem?_eq_none (by simp [wStart])] at hb
    cases hb

/-- C60: the neighbour is needed at the last vertex too: the increment after it reads outside the neighbour list. -/
theorem random_range_dead_end (g : Rows α) (n first : Nat) (hn : 0 < n) (dice : Nat → ℚ) (h : ∀ w, ¬ Edge g first w) :
    Loop (wRound g dice) (wStart first n) (.error .outOfBounds) := by
  apply Loop.fault
  unfold wRound wStart
  dsimp only
  rw [if_neg (by omega)]
  rcases Nat.lt_or_ge first g.length with hl | hl
  · have hnil : g[first] = [] := by
      rw [List.eq_nil_iff_forall_not_mem]
      intro x hx
      apply h x.1
      unfold Edge nbrs
      rw [List.getD_eq_getElem?_getD, List.getElem?_eq_getElem hl]
      exact List.mem_map_of_mem hx
    rw [vget_of_lt hl, res_bind_ok, hnil]
    rfl
  · rw [vget_of_ge hl]; rfl

/-- C60: no walk is left out: for every walk there are random numbers for which the range delivers it. -/
theorem random_range_every_walk (g : Rows α) (vs : List Nat) (first : Nat) (hout : ∀ v, Reachable g first v → ∃ w, Edge g v w) (h0 : vs[0]? = some first) (hw : IsWalk g vs) :
    ∃ dice, Dice dice ∧ Loop (wRound g dice) (wStart first vs.length) (.ok vs) := by
  -- the i-th number selects an entry that leads from the i-th to the next vertex
  have hpick : ∀ i, ∃ d : ℚ, 0 ≤ d ∧ d < 1 ∧ ∀ a b, vs[i]? = some a → vs[i + 1]? = some b → ∀ row, g[a]? = some row → ∃ x, row[(⌊(row.length : ℚ) * d⌋).toNat]? = some x ∧ x.1 = b := by
    intro i
    by_cases hi : i + 1 < vs.length
    · have he := hw i _ _ (List.getElem?_eq_getElem (by omega)) (List.getElem?_eq_getElem hi)
      have hcl := he.src_lt
      have he' := he
      unfold Edge nbrs at he'
      rw [List.getD_eq_getElem?_getD, List.getElem?_eq_getElem hcl] at he'
      obtain ⟨x, hx, hxb⟩ := List.mem_map.1 he'
      obtain ⟨j, hj, hjx⟩ := List.getElem_of_mem hx
      simp only [Option.getD_some] at hj hjx
      have hpos : (0 : ℚ) < ((g[vs[i]]'hcl).length : ℚ) := by exact_mod_cast (by omega : 0 < (g[vs[i]]'hcl).length)
      refine ⟨(j : ℚ) / ((g[vs[i]]'hcl).length : ℚ), div_nonneg (by exact_mod_cast Nat.zero_le j) hpos.le, (div_lt_one hpos).2 (by exact_mod_cast hj), ?_⟩
      intro a b ha hb row hrow
      rw [List.getElem?_eq_getElem (by omega), Option.some.injEq] at ha
      rw [List.getElem?_eq_getElem hi, Option.some.injEq] at hb
      subst ha hb
      rw [List.getElem?_eq_getElem hcl, Option.some.injEq] at hrow
      subst hrow
      rw [mul_div_cancel₀ _ hpos.ne']
      refine ⟨x, ?_, hxb⟩
      simp only [Int.floor_natCast, Int.toNat_natCast]
      rw [List.getElem?_eq_getElem hj, hjx]
    · exact ⟨0, le_refl _, by norm_num, fun a b _ hb => by rw [List.getElem?_eq_none (by omega)] at hb; cases hb⟩
  choose dice hd1 hd2 hd3 using hpick
  refine ⟨dice, fun i => ⟨hd1 i, hd2 i⟩, ?_⟩
  suffices h : ∃ out, Loop (wRound g dice) (wStart first vs.length) (.ok out) ∧ out = vs by
    obtain ⟨out, h1, rfl⟩ := h; exact h1
  refine Loop.of_rank (fun m st => m = st.left ∧ st.left + st.throws = vs.length ∧ st.out = vs.take st.throws ∧ (0 < st.left → vs[st.throws]? = some st.cur) ∧ Reachable g first st.cur) _ ?_
    (k := vs.length) ⟨rfl, rfl, by simp [wStart], fun _ => h0, ⟨0, .nil⟩⟩
  rintro m st ⟨hm, hn, ho, hc, d, hr⟩
  by_cases hl : st.left = 0
  · left
    refine ⟨st.out, by unfold wRound; rw [if_pos hl]; rfl, ?_⟩
    rw [ho, List.take_of_length_le (by omega)]
  · right
    obtain ⟨w, hew⟩ := hout _ ⟨d, hr⟩
    have hcl := hew.src_lt
    have hpos : 0 < (g[st.cur]'hcl).length := by
      unfold Edge nbrs at hew
      rw [List.getD_eq_getElem?_getD, List.getElem?_eq_getElem hcl] at hew
      obtain ⟨x, hx, -⟩ := List.mem_map.1 hew
      exact List.length_pos_of_mem hx
    have hpk := pick_lt hpos (hd1 st.throws) (hd2 st.throws)
    set pk := (⌊((g[st.cur]'hcl).length : ℚ) * dice st.throws⌋).toNat with hpkd
    have he : Edge g st.cur ((g[st.cur]'hcl)[pk]'hpk).1 := by
      unfold Edge nbrs
      rw [List.getD_eq_getElem?_getD, List.getElem?_eq_getElem hcl]
      exact List.mem_map_of_mem (List.getElem_mem hpk)
    refine ⟨⟨((g[st.cur]'hcl)[pk]'hpk).1, st.left - 1, st.throws + 1, st.out ++ [st.cur]⟩, st.left - 1, ?_, by omega, rfl, by dsimp only; omega, ?_, ?_, ⟨_, hr.snoc he⟩⟩
    · unfold wRound
      rw [if_neg hl, vget_of_lt hcl, res_bind_ok, ← hpkd, vget_of_lt hpk, res_bind_ok]; rfl
    · dsimp only
      rw [ho, List.take_add_one, hc (by omega)]; rfl
    · dsimp only
      intro hpos'
      obtain ⟨x, hx1, hx2⟩ := hd3 st.throws _ _ (hc (by omega)) (List.getElem?_eq_getElem (by omega)) _ (List.getElem?_eq_getElem hcl)
      rw [← hpkd, List.getElem?_eq_getElem hpk, Option.some.injEq] at hx1
      rw [List.getElem?_eq_getElem (by omega), hx1, hx2]

/-- The graph 0 → 1, 2; 1 → 0; 2 → 2. -/
def exG : Rows Unit := [[(1, ()), (2, ())], [(0, ())], [(2, ())]]

/-- The hypotheses hold for `exG`, and with the numbers 0.4, 0.4, 0.8, 0.8 the walk 0, 1, 0, 2 is delivered. -/
example : (∀ v, Reachable exG 0 v → ∃ w, Edge exG v w) ∧ Loop (wRound exG fun i => if i < 2 then 2 / 5 else 4 / 5) (wStart 0 4) (.ok [0, 1, 0, 2]) := by
  constructor
  · have hin : InRange exG := by decide
    rintro v ⟨d, h⟩
    have hv : v < 3 := by
      cases h with
      | nil => decide
      | snoc _ he => exact hin _ _ he
    rcases v with _ | _ | _ | v
    · exact ⟨1, by unfold Edge; decide⟩
    · exact ⟨0, by unfold Edge; decide⟩
    · exact ⟨2, by unfold Edge; decide⟩
    · omega
  · exact Loop.of_runFuel (n := 5) (by decide +kernel)

end NW.PathRanges
