import Verif.Model.Timer
import Verif.Props.MatrixMarket
import Mathlib.Data.List.Induction
import Mathlib.Tactic.Ring
import Mathlib.Tactic.Linarith
import Mathlib.Algebra.Order.Field.Rat
import Mathlib.Data.Nat.Cast.Order.Field

/-!
# C133: timers
-/

namespace NW.Timer
open Spec MM

/-! ## Histories -/

/-- **C133.** `elapsed()` after any history: the time from the last start to the last stop, in units, rounded towards zero. -/
theorem elapsed_history (unit made : Int) (h : List TimerEvent) :
    ∃ b e, LastStart made h b ∧ LastStop made h e ∧ elapsed unit (h.foldl apply (make made)) = (e - b).tdiv unit := by
  suffices H : LastStart made h (h.foldl apply (make made)).start ∧ LastStop made h (h.foldl apply (make made)).stop from ⟨_, _, H.1, H.2, rfl⟩
  induction h using List.reverseRecOn with
  | nil => exact ⟨.inl ⟨rfl, by simp⟩, .inl ⟨rfl, by simp⟩⟩
  | append_singleton h ev ih =>
    obtain ⟨h1, h2⟩ := ih
    rw [List.foldl_append]
    cases ev with
    | start t =>
      refine ⟨.inr ⟨h, [], rfl, by simp⟩, ?_⟩
      rcases h2 with ⟨a, b⟩ | ⟨x, y, a, b⟩
      · exact .inl ⟨a, by intro t; simp [b t]⟩
      · refine .inr ⟨x, y ++ [.start t], ?_, by intro t; simp [b t]⟩
        have := congrArg (· ++ [TimerEvent.start t]) a
        simpa [apply] using this
    | stop t =>
      refine ⟨?_, .inr ⟨h, [], rfl, by simp⟩⟩
      rcases h1 with ⟨a, b⟩ | ⟨x, y, a, b⟩
      · exact .inl ⟨a, by intro t; simp [b t]⟩
      · refine .inr ⟨x, y ++ [.stop t], ?_, by intro t; simp [b t]⟩
        have := congrArg (· ++ [TimerEvent.stop t]) a
        simpa [apply] using this

theorem wholeUnits_tdiv {unit d : Int} (hu : 0 < unit) (hd : 0 ≤ d) : WholeUnits unit d (d.tdiv unit) := by
  unfold WholeUnits
  rw [Int.tdiv_eq_ediv_of_nonneg hd]
  have h1 := Int.mul_ediv_add_emod d unit
  have h2 := Int.emod_nonneg d (Int.ne_of_gt hu)
  have h3 := Int.emod_lt_of_pos d hu
  have h4 : unit * (d / unit) = d / unit * unit := Int.mul_comm _ _
  rw [Int.add_mul]
  constructor <;> omega

/-- **C133.** If the timer was started, then perhaps stopped, and the clock was not set back in between, `elapsed()` is the number of whole units from the last start to the last stop.  Missing: a timer that was started again and not stopped, and a clock that was set back (below). -/
theorem elapsed_partial (unit made b e : Int) (hu : 0 < unit) (h1 h2 h3 : List TimerEvent) (hb : ∀ t, .start t ∉ h2) (hb' : ∀ t, .start t ∉ h3) (he : ∀ t, .stop t ∉ h3) (hbe : b ≤ e) :
    WholeUnits unit (e - b) (elapsed unit ((h1 ++ .start b :: h2 ++ .stop e :: h3).foldl apply (make made))) := by
  have hstart : ∀ (h : List TimerEvent) (s : St), (∀ t, .start t ∉ h) → (h.foldl apply s).start = s.start := by
    intro h
    induction h with
    | nil => intros; rfl
    | cons ev h ih =>
      intro s hs
      cases ev with
      | start t => exact absurd (by simp) (hs t)
      | stop t => exact ih _ (fun t ht => hs t (by simp [ht]))
  have hstop : ∀ (h : List TimerEvent) (s : St), (∀ t, .stop t ∉ h) → (h.foldl apply s).stop = s.stop := by
    intro h
    induction h with
    | nil => intros; rfl
    | cons ev h ih =>
      intro s hs
      cases ev with
      | stop t => exact absurd (by simp) (hs t)
      | start t => exact ih _ (fun t ht => hs t (by simp [ht]))
  unfold elapsed
  rw [List.foldl_append, List.foldl_cons, List.foldl_append, List.foldl_cons, hstop _ _ he, hstart _ _ hb']
  show WholeUnits unit (e - b) ((e - (h2.foldl apply _).start).tdiv unit)
  rw [hstart _ _ hb]
  exact wholeUnits_tdiv hu (by show 0 ≤ e - b; omega)

/-- **C133.** `lap()` is `stop()` and `elapsed()`; the timer goes on from the same start. -/
theorem lap_eq (unit now : Int) (s : St) : lap unit s now = (apply s (.stop now), elapsed unit (apply s (.stop now))) ∧ (lap unit s now).1.start = s.start := ⟨rfl, rfl⟩

/-- **C133.** The laps of one timer, read from a clock that is never set back, do not decrease. -/
theorem laps_monotone (unit : Int) (hu : 0 < unit) (s : St) (t t' : Int) (h : s.start ≤ t) (h' : t ≤ t') : (lap unit s t).2 ≤ (lap unit (lap unit s t).1 t').2 := by
  show (t - s.start).tdiv unit ≤ (t' - s.start).tdiv unit
  rw [Int.tdiv_eq_ediv_of_nonneg (by omega), Int.tdiv_eq_ediv_of_nonneg (by omega)]
  exact Int.ediv_le_ediv hu (by omega)

/-- **C133.** The pieces of a time measured one after the other: their sum is at most the time measured at once, and is short of it by less than the number of pieces. -/
theorem pieces (unit : Int) (hu : 0 < unit) (t0 : Int) (ts : List Int) (hmono : (t0 :: ts).Pairwise (· ≤ ·)) :
    let piece := fun p : Int × Int => elapsed unit ⟨p.1, p.2⟩
    let total := elapsed unit ⟨t0, (t0 :: ts).getLast (by simp)⟩
    (((t0 :: ts).zip ts).map piece).sum ≤ total ∧ total ≤ (((t0 :: ts).zip ts).map piece).sum + (ts.length - 1 : Nat) := by
  intro piece total
  have key : ∀ (ts : List Int) (t0 : Int), (t0 :: ts).Pairwise (· ≤ ·) →
      (((t0 :: ts).zip ts).map piece).sum * unit ≤ (t0 :: ts).getLast (by simp) - t0 ∧
      (ts ≠ [] → (t0 :: ts).getLast (by simp) - t0 < ((((t0 :: ts).zip ts).map piece).sum + ts.length) * unit) ∧ t0 ≤ (t0 :: ts).getLast (by simp) := by
    intro ts
    induction ts with
    | nil => intro t0 _; simp
    | cons t1 ts ih =>
      intro t0 h
      rw [List.pairwise_cons] at h
      obtain ⟨a, b, c⟩ := ih t1 h.2
      have h01 : t0 ≤ t1 := h.1 t1 (by simp)
      obtain ⟨w1, w2⟩ : WholeUnits unit (t1 - t0) (piece (t0, t1)) := wholeUnits_tdiv hu (by omega)
      have hz : ((t0 :: t1 :: ts).zip (t1 :: ts)).map piece = piece (t0, t1) :: ((t1 :: ts).zip ts).map piece := rfl
      rw [hz, List.sum_cons, List.getLast_cons (by simp)]
      refine ⟨by linarith [Int.add_mul (piece (t0, t1)) (((t1 :: ts).zip ts).map piece).sum unit], ?_, by omega⟩
      intro _
      rw [List.length_cons]
      by_cases hts : ts = []
      · subst hts
        simp only [List.getLast_singleton, List.zip_nil_right, List.map_nil, List.sum_nil, List.length_nil]
        push_cast
        linarith
      · have := b hts
        push_cast
        nlinarith
  obtain ⟨a, b, c⟩ := key ts t0 hmono
  obtain ⟨w1, w2⟩ : WholeUnits unit ((t0 :: ts).getLast (by simp) - t0) total := wholeUnits_tdiv hu (by omega)
  constructor
  · have : (((t0 :: ts).zip ts).map piece).sum * unit < (total + 1) * unit := by omega
    have := lt_of_mul_lt_mul_right this (by omega)
    omega
  · by_cases hts : ts = []
    · subst hts
      show total ≤ _
      have : total = 0 := by show (t0 - t0).tdiv unit = 0; simp
      simp [this]
    · have := b hts
      have : total * unit < ((((t0 :: ts).zip ts).map piece).sum + ts.length) * unit := by omega
      have := lt_of_mul_lt_mul_right this (by omega)
      have hl : 0 < ts.length := List.length_pos_of_ne_nil hts
      omega

/-- **C133, false of the code:** a timer that is started again and not stopped reports a negative time, although the clock was never set back. -/
theorem elapsed_restart_wrong (unit : Int) (hu : 0 < unit) : elapsed unit ([.start 0, .stop unit, .start (3 * unit)].foldl apply (make 0)) = -2 := by
  show (unit - 3 * unit).tdiv unit = -2
  rw [show unit - 3 * unit = -2 * unit by ring, Int.mul_tdiv_cancel _ (by omega)]

/-- **C133, false of the code:** so does one whose clock was set back: `system_clock` is not steady. -/
theorem elapsed_clock_wrong (unit : Int) (hu : 0 < unit) (back : Nat) : elapsed unit ([.start 0, .stop (-(back * unit))].foldl apply (make 0)) = -back := by
  show (-(back * unit) - 0).tdiv unit = -back
  rw [Int.sub_zero, ← Int.neg_mul, Int.mul_tdiv_cancel _ (by omega)]

/-! ## Printing -/

theorem digit_val (d : Nat) (h : d < 10) : (Char.ofNat (48 + d)).toNat - '0'.toNat = d := (digit_char d h).2.2

theorem six_numeral {m : Nat} (h : m < 10 ^ 6) : Numeral (six m) m := by
  refine ⟨by simp [six], ?_, ?_⟩
  · intro c hc
    obtain ⟨d, hd, rfl⟩ := List.mem_map.1 hc
    have : d < 10 := by
      simp only [List.mem_cons, List.not_mem_nil, or_false] at hd
      omega
    exact ⟨(digit_char d this).1, (digit_char d this).2.1⟩
  · have h' : m < 1000000 := by simpa using h
    simp only [six, List.map_cons, List.map_nil, List.foldl_cons, List.foldl_nil]
    rw [digit_val _ (by omega), digit_val _ (by omega), digit_val _ (by omega), digit_val _ (by omega), digit_val _ (by omega), digit_val _ (by omega)]
    omega

theorem foldl_zeros (k a : Nat) : (List.replicate k '0').foldl (fun a c => 10 * a + (c.toNat - '0'.toNat)) a = a * 10 ^ k := by
  induction k generalizing a with
  | zero => simp
  | succ k ih =>
    rw [List.replicate_succ, List.foldl_cons, ih]
    have : '0'.toNat - '0'.toNat = 0 := rfl
    rw [this, Nat.pow_succ]; ring

theorem strip_append (ds : List Char) : ∃ k, ds = strip ds ++ List.replicate k '0' := by
  refine ⟨(ds.reverse.takeWhile (· == '0')).length, ?_⟩
  unfold strip
  have h : ds.reverse.takeWhile (· == '0') = List.replicate (ds.reverse.takeWhile (· == '0')).length '0' := by
    rw [List.eq_replicate_iff]
    refine ⟨rfl, ?_⟩
    intro c hc
    have := List.all_eq_true.1 (List.all_takeWhile (p := (· == '0')) (l := ds.reverse)) c hc
    simpa using this
  conv => lhs; rw [← List.reverse_reverse (as := ds), ← List.takeWhile_append_dropWhile (p := (· == '0')) (l := ds.reverse), List.reverse_append]
  congr 1
  rw [h]; simp

theorem scientific_says {m : Nat} (h : m < 10 ^ 6) (x : Nat) : Says (scientific m (x + 5)) (m * 10 ^ x) := by
  obtain ⟨a, ds, hs⟩ : ∃ a ds, six m = a :: ds := ⟨_, _, rfl⟩
  have hlen : ds.length = 5 := by
    have : (six m).length = 6 := rfl
    rw [hs] at this; simpa using this
  obtain ⟨k, hk⟩ := strip_append ds
  have hN := six_numeral h
  rw [hs] at hN
  have hkl : (strip ds).length + k = 5 := by rw [hk] at hlen; simpa using hlen
  obtain ⟨v, hv⟩ : ∃ v, v = (a :: strip ds).foldl (fun a c => 10 * a + (c.toNat - '0'.toNat)) 0 := ⟨_, rfl⟩
  have hval : v * 10 ^ k = m := by
    have := hN.2.2
    rw [hk, ← List.cons_append, List.foldl_append, foldl_zeros, ← hv] at this
    exact this
  refine .inr ⟨a, strip ds, if x + 5 < 10 then '0' :: showNat (x + 5) else showNat (x + 5), v, x + 5, ?_, ⟨by simp, ?_, hv.symm⟩, ?_, ?_⟩
  · unfold scientific; rw [hs]
  · intro c hc
    apply hN.2.1
    rw [hk]
    rcases List.mem_cons.1 hc with hc | hc
    · simp [hc]
    · simp [hc]
  · split
    · obtain ⟨_, h2, h3⟩ := showNat_numeral (x + 5)
      refine ⟨by simp, ?_, ?_⟩
      · intro c hc
        rcases List.mem_cons.1 hc with rfl | hc
        · decide
        · exact h2 c hc
      · rw [List.foldl_cons]; exact h3
    · exact showNat_numeral _
  · have h10 : (10 : ℚ) ^ (strip ds).length ≠ 0 := by positivity
    rw [eq_div_iff h10, ← hval]
    push_cast
    have : (10 : ℚ) ^ (x + 5) = 10 ^ x * 10 ^ k * 10 ^ (strip ds).length := by rw [← pow_add, ← pow_add]; congr 1; omega
    rw [this]; ring

theorem nearest_near {n p : Nat} (hp : 0 < p) : 2 * n ≤ 2 * (nearest n p * p) + p ∧ 2 * (nearest n p * p) ≤ 2 * n + p := by
  have h := Nat.div_add_mod n p
  have hl := Nat.mod_lt n hp
  have hc : p * (n / p) = n / p * p := Nat.mul_comm _ _
  unfold nearest
  split
  · constructor <;> omega
  · split
    · rw [Nat.add_mul]; constructor <;> omega
    · split
      · constructor <;> omega
      · rw [Nat.add_mul]; constructor <;> omega

/-- **C133.** Whole numbers below a million are printed as they are. -/
theorem showG_small (n : Nat) (h : n < 10 ^ 6) : Says (showG n) n := by
  unfold showG
  rw [if_pos h]
  exact .inl ⟨n, showNat_numeral n, rfl⟩

/-- **C133.** From a million on, six digits are printed: the number that is printed differs by at most half a unit of the sixth digit. -/
theorem showG_large (n : Nat) (h : 10 ^ 6 ≤ n) :
    ∃ v : Nat, Says (showG n) v ∧ 10 ^ (Nat.log 10 n - 5) ∣ v ∧ 2 * n ≤ 2 * v + 10 ^ (Nat.log 10 n - 5) ∧ 2 * v ≤ 2 * n + 10 ^ (Nat.log 10 n - 5) := by
  have hlog : 6 ≤ Nat.log 10 n := (Nat.le_log_iff_pow_le (by decide) (by omega)).2 h
  obtain ⟨d, hd⟩ : ∃ d, Nat.log 10 n = d + 5 := ⟨Nat.log 10 n - 5, by omega⟩
  have hp : 0 < 10 ^ d := Nat.pow_pos (by decide)
  obtain ⟨h1, h2⟩ := nearest_near (n := n) hp
  have hhi : n < 10 ^ (d + 6) := by have := Nat.lt_pow_succ_log_self (b := 10) (by decide) n; rw [hd] at this; exact this
  have hle : nearest n (10 ^ d) ≤ 10 ^ 6 := by
    by_contra hc
    have hdiv : n / 10 ^ d < 10 ^ 6 := by rw [Nat.div_lt_iff_lt_mul hp, ← Nat.pow_add, Nat.add_comm]; exact hhi
    have : nearest n (10 ^ d) ≤ n / 10 ^ d + 1 := by unfold nearest; split; omega; split; omega; split <;> omega
    omega
  have he : showG n = if nearest n (10 ^ d) = 10 ^ 6 then scientific (10 ^ 5) (d + 6) else scientific (nearest n (10 ^ d)) (d + 5) := by
    unfold showG
    rw [if_neg (by omega), hd, Nat.add_sub_cancel]
  rw [he, hd, Nat.add_sub_cancel]
  refine ⟨nearest n (10 ^ d) * 10 ^ d, ?_, Dvd.intro_left _ rfl, h1, h2⟩
  split
  · rename_i hm
    rw [hm]
    have := scientific_says (m := 10 ^ 5) (by decide) (d + 1)
    have hv : (((10 ^ 6 * 10 ^ d : Nat)) : ℚ) = ((10 ^ 5 : Nat) : ℚ) * 10 ^ (d + 1) := by push_cast; ring
    rw [hv]; exact this
  · rename_i hm
    have := scientific_says (m := nearest n (10 ^ d)) (by omega) d
    push_cast
    exact this

/-- **C133, false of the code:** so different times of a second or more, in microseconds, are printed alike. -/
theorem print_wrong : print 1000 " us".toList "t".toList ⟨0, 1000000000⟩ = print 1000 " us".toList "t".toList ⟨0, 1000001000⟩ ∧
    elapsed 1000 ⟨0, 1000000000⟩ ≠ elapsed 1000 ⟨0, 1000001000⟩ := by
  refine ⟨?_, by decide⟩
  have h1 : Nat.log 10 1000000 = 6 := by rw [Nat.log_eq_iff (by simp)]; decide
  have h2 : Nat.log 10 1000001 = 6 := by rw [Nat.log_eq_iff (by simp)]; decide
  have e1 : elapsed 1000 ⟨0, 1000000000⟩ = 1000000 := by decide
  have e2 : elapsed 1000 ⟨0, 1000001000⟩ = 1000001 := by decide
  unfold print
  rw [e1, e2]
  have g1 : showI 1000000 = scientific 100000 6 := by
    show showG 1000000 = _
    unfold showG
    rw [if_neg (by decide), h1]; rfl
  have g2 : showI 1000001 = scientific 100000 6 := by
    show showG 1000001 = _
    unfold showG
    rw [if_neg (by decide), h2]; rfl
  rw [g1, g2]

/-- **C133.** `os << t` prints the name in parentheses, if there is one, the time and the unit.  The time is exact below a million units (`showG_large` otherwise). -/
theorem print_partial (unit : Int) (label name : List Char) (s : St) (h0 : 0 ≤ elapsed unit s) (h : elapsed unit s < 10 ^ 6) :
    ∃ t, Numeral t (elapsed unit s).toNat ∧ print unit label name s = (if name = [] then [] else '(' :: name ++ [')', ' ']) ++ t ++ label := by
  have ht : (elapsed unit s).natAbs < 10 ^ 6 := by have : (10 : Int) ^ 6 = 1000000 := rfl; omega
  refine ⟨showNat (elapsed unit s).natAbs, ?_, ?_⟩
  · rw [show (elapsed unit s).toNat = (elapsed unit s).natAbs by omega]; exact showNat_numeral _
  · have hI : showI (elapsed unit s) = showNat (elapsed unit s).natAbs := by unfold showI showG; rw [if_neg (by omega), if_pos ht]
    unfold print
    rw [hI]
    by_cases hn : name = [] <;> simp [hn]

/-- **C133.** A `life_timer` without a name prints nothing; one with a name prints, on one line, the milliseconds from its construction to its end. -/
theorem life_partial (unit made now : Int) (hu : 0 < unit) (name : List Char) (h : made ≤ now) (h6 : now - made < 10 ^ 6 * unit) :
    life unit [] (make made) now = [] ∧
    (name ≠ [] → ∃ t n, WholeUnits unit (now - made) n ∧ Numeral t n.toNat ∧ life unit name (make made) now = "# [ ".toList ++ name ++ " ]: ".toList ++ t ++ " ms\n".toList) := by
  refine ⟨rfl, ?_⟩
  intro hn
  have hw : WholeUnits unit (now - made) (elapsed unit (apply (make made) (.stop now))) := wholeUnits_tdiv hu (by omega)
  generalize hE : elapsed unit (apply (make made) (.stop now)) = E at hw
  have h0 : 0 ≤ E := by
    have := hw.2
    by_contra hc
    have : (E + 1) * unit ≤ 0 := by nlinarith
    omega
  have hlt : E < 10 ^ 6 := by
    have : E * unit < 10 ^ 6 * unit := by have := hw.1; omega
    exact lt_of_mul_lt_mul_right this (by omega)
  have ht : E.natAbs < 10 ^ 6 := by have : (10 : Int) ^ 6 = 1000000 := rfl; omega
  refine ⟨showNat E.natAbs, E, hw, ?_, ?_⟩
  · rw [show E.toNat = E.natAbs by omega]; exact showNat_numeral _
  · unfold life
    dsimp only
    rw [if_pos hn, hE]
    unfold showI showG
    rw [if_neg (by omega), if_pos ht]

-- a timer started at 5, stopped at 2005 and again at 3999, in units of 1000
example : elapsed 1000 ([.start 5, .stop 2005, .stop 3999].foldl apply (make 0)) = 3 := by decide
example : (print 1000 " us".toList "t".toList ⟨0, 12345678⟩) = "(t) 12345 us".toList := by
  have : elapsed 1000 ⟨0, 12345678⟩ = 12345 := by decide
  unfold print
  rw [this]
  decide +kernel

end NW.Timer
