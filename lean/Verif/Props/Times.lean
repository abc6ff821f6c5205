import Verif.Model.Times
import Verif.Lemmas.ListRes
import Mathlib.Tactic.Linarith
import Mathlib.Tactic.Ring
import Mathlib.Algebra.BigOperators.Group.List.Basic
import Mathlib.Tactic.FieldSimp

/-!
# C121: the times that the benchmarks report
-/

namespace NW.Times

/-- The times recorded for `k` in a history of calls, in order. -/
def samplesOf (h : List (Key × ℚ)) (k : Key) : List ℚ := (h.filter fun e => decide (e.1 = k)).map Prod.snd

/-- The table after a history of calls of `append`. -/
def after (h : List (Key × ℚ)) : Table := h.foldl (fun m e => append e.1 e.2 m) []

/-- The keys increase, no entry is empty. -/
def Sorted (m : Table) : Prop := m.Pairwise (fun a b => a.1 < b.1)

def find (m : Table) (k : Key) : List ℚ := ((m.filter fun e => decide (e.1 = k)).map Prod.snd).flatten

theorem append_keys {k : Key} {t : ℚ} {m : Table} {e : Key × List ℚ} (h : e ∈ append k t m) : e.1 = k ∨ ∃ e' ∈ m, e'.1 = e.1 := by
  induction m with
  | nil =>
    simp only [append, List.mem_singleton] at h
    exact .inl (by rw [h])
  | cons a m ih =>
    obtain ⟨k', ts⟩ := a
    unfold append at h
    split at h
    · rcases List.mem_cons.1 h with rfl | h
      · exact .inl rfl
      · exact .inr ⟨e, h, rfl⟩
    · split at h
      · rcases List.mem_cons.1 h with rfl | h
        · exact .inr ⟨_, List.mem_cons_self, rfl⟩
        · rcases ih h with h | ⟨e', h1, h2⟩
          · exact .inl h
          · exact .inr ⟨e', List.mem_cons_of_mem _ h1, h2⟩
      · rcases List.mem_cons.1 h with rfl | h
        · exact .inr ⟨(k', ts), List.mem_cons_self, rfl⟩
        · exact .inr ⟨e, List.mem_cons_of_mem _ h, rfl⟩

theorem append_sorted {k : Key} {t : ℚ} {m : Table} (h : Sorted m) : Sorted (append k t m) := by
  induction m with
  | nil => exact List.pairwise_singleton _ _
  | cons a m ih =>
    obtain ⟨k', ts⟩ := a
    have h' := List.pairwise_cons.1 h
    unfold append
    split
    · rename_i hlt
      refine List.pairwise_cons.2 ⟨fun e he => ?_, h⟩
      rcases List.mem_cons.1 he with rfl | he
      · exact hlt
      · exact lt_trans hlt (h'.1 e he)
    · split
      · rename_i hlt
        refine List.pairwise_cons.2 ⟨fun e he => ?_, ih h'.2⟩
        rcases append_keys he with h1 | ⟨e', h1, h2⟩
        · rw [h1]; exact hlt
        · rw [← h2]; exact h'.1 e' h1
      · exact List.pairwise_cons.2 ⟨h'.1, h'.2⟩

theorem append_find {k : Key} {t : ℚ} {m : Table} (h : Sorted m) (k' : Key) : find (append k t m) k' = find m k' ++ if k = k' then [t] else [] := by
  have none : ∀ (m : Table), (∀ e ∈ m, k < e.1) → find m k = [] := by
    intro m hm
    unfold find
    rw [List.filter_eq_nil_iff.2 (fun e he => by simp [(hm e he).ne'])]
    rfl
  induction m with
  | nil =>
    by_cases hk : k = k' <;> simp [append, find, hk]
  | cons a m ih =>
    obtain ⟨k1, ts⟩ := a
    have h' := List.pairwise_cons.1 h
    unfold append
    split
    · rename_i hlt
      have hn := none ((k1, ts) :: m) fun e he => by
        rcases List.mem_cons.1 he with rfl | he
        · exact hlt
        · exact lt_trans hlt (h'.1 e he)
      by_cases hk : k = k'
      · subst hk
        rw [hn]
        unfold find at hn ⊢
        rw [List.filter_cons_of_pos (by simp), List.map_cons, List.flatten_cons, hn]
        simp
      · unfold find
        rw [List.filter_cons_of_neg (by simpa using hk)]
        simp [hk]
    · split
      · have ih := ih h'.2
        unfold find at ih ⊢
        by_cases hk : k1 = k'
        · rw [List.filter_cons_of_pos (by simpa using hk), List.filter_cons_of_pos (by simpa using hk)]
          simp only [List.map_cons, List.flatten_cons, ih, List.append_assoc]
        · rw [List.filter_cons_of_neg (by simpa using hk), List.filter_cons_of_neg (by simpa using hk)]
          exact ih
      · rename_i h1 h2
        have e : k = k1 := le_antisymm (not_lt.1 h2) (not_lt.1 h1)
        subst e
        by_cases hk : k = k'
        · subst hk
          have hn := none m h'.1
          unfold find at hn ⊢
          rw [List.filter_cons_of_pos (by simp), List.filter_cons_of_pos (by simp), List.map_cons, List.map_cons, List.flatten_cons, List.flatten_cons, hn]
          simp
        · unfold find
          rw [List.filter_cons_of_neg (by simpa using hk), List.filter_cons_of_neg (by simpa using hk)]
          simp [hk]

theorem append_ne_nil {k : Key} {t : ℚ} {m : Table} (h : ∀ e ∈ m, e.2 ≠ []) : ∀ e ∈ append k t m, e.2 ≠ [] := by
  induction m with
  | nil => simp [append]
  | cons a m ih =>
    obtain ⟨k', ts⟩ := a
    have ih := ih fun e he => h e (List.mem_cons_of_mem _ he)
    unfold append
    split
    · intro e he
      rcases List.mem_cons.1 he with rfl | he
      · simp
      · exact h e he
    · split
      · intro e he
        rcases List.mem_cons.1 he with rfl | he
        · exact h (k', ts) List.mem_cons_self
        · exact ih e he
      · intro e he
        rcases List.mem_cons.1 he with rfl | he
        · simp
        · exact h e (List.mem_cons_of_mem _ he)

theorem after_ok (h : List (Key × ℚ)) : Sorted (after h) ∧ (∀ k, find (after h) k = samplesOf h k) ∧ ∀ e ∈ after h, e.2 ≠ [] := by
  unfold after
  suffices ∀ (h : List (Key × ℚ)) (m : Table), Sorted m → (∀ e ∈ m, e.2 ≠ []) → Sorted (h.foldl (fun m e => append e.1 e.2 m) m) ∧
      (∀ k, find (h.foldl (fun m e => append e.1 e.2 m) m) k = find m k ++ samplesOf h k) ∧ ∀ e ∈ h.foldl (fun m e => append e.1 e.2 m) m, e.2 ≠ [] by
    simpa [find] using this h [] List.Pairwise.nil (by simp)
  intro h
  induction h with
  | nil => intro m h1 h2; exact ⟨h1, fun k => by simp [samplesOf], h2⟩
  | cons e h ih =>
    intro m h1 h2
    obtain ⟨a, b, c⟩ := ih (append e.1 e.2 m) (append_sorted h1) (append_ne_nil h2)
    refine ⟨a, fun k => ?_, c⟩
    rw [List.foldl_cons, b, append_find h1]
    unfold samplesOf
    by_cases hk : e.1 = k
    · rw [List.filter_cons_of_pos (by simpa using hk)]
      simp [hk]
    · rw [List.filter_cons_of_neg (by simpa using hk)]
      simp [hk]

theorem find_mem {m : Table} (h : Sorted m) {e : Key × List ℚ} (he : e ∈ m) : find m e.1 = e.2 := by
  induction m with
  | nil => simp at he
  | cons a m ih =>
    have h' := List.pairwise_cons.1 h
    unfold find
    rcases List.mem_cons.1 he with rfl | he
    · rw [List.filter_cons_of_pos (by simp), List.filter_eq_nil_iff.2 (fun e he => by simp [(h'.1 e he).ne'])]
      simp
    · rw [List.filter_cons_of_neg (by simpa using (h'.1 e he).ne)]
      exact ih h'.2 he

theorem foldl_add (l : List ℚ) (x : ℚ) : l.foldl (fun total sample => total + sample) x = x + l.sum := by
  induction l generalizing x with
  | nil => simp
  | cons a l ih => rw [List.foldl_cons, ih, List.sum_cons]; ring

/-- What the columns of a line are to say of the recorded times. -/
def Describes (r : Row) (ts : List ℚ) : Prop :=
  r.min ∈ ts ∧ (∀ t ∈ ts, r.min ≤ t) ∧ r.max ∈ ts ∧ (∀ t ∈ ts, t ≤ r.max) ∧ r.avg * ts.length = ts.sum

theorem minmax_ok (t : ℚ) (ts : List ℚ) : ∃ a b, minmax (t :: ts) = .ok (a, b) ∧ a ∈ t :: ts ∧ (∀ x ∈ t :: ts, a ≤ x) ∧ b ∈ t :: ts ∧ ∀ x ∈ t :: ts, x ≤ b := by
  unfold minmax
  suffices ∀ (ts pre : List ℚ) (a b : ℚ), a ∈ pre → (∀ x ∈ pre, a ≤ x) → b ∈ pre → (∀ x ∈ pre, x ≤ b) →
      ∃ a' b', ts.foldl (fun (p : ℚ × ℚ) x => (if x < p.1 then x else p.1, if x < p.2 then p.2 else x)) (a, b) = (a', b') ∧
        a' ∈ pre ++ ts ∧ (∀ x ∈ pre ++ ts, a' ≤ x) ∧ b' ∈ pre ++ ts ∧ ∀ x ∈ pre ++ ts, x ≤ b' by
    obtain ⟨a, b, h⟩ := this ts [t] t t (by simp) (by simp) (by simp) (by simp)
    exact ⟨a, b, congrArg Except.ok h.1, by simpa using h.2⟩
  intro ts
  induction ts with
  | nil => intro pre a b h1 h2 h3 h4; exact ⟨a, b, rfl, by simpa using ⟨h1, h2, h3, h4⟩⟩
  | cons y ts ih =>
    intro pre a b h1 h2 h3 h4
    obtain ⟨a', b', e, h⟩ := ih (pre ++ [y]) (if y < a then y else a) (if y < b then b else y)
      (by split <;> simp [h1])
      (by
        intro x hx
        rcases List.mem_append.1 hx with hx | hx
        · have := h2 x hx
          split <;> linarith
        · rw [List.mem_singleton.1 hx]
          split <;> linarith)
      (by split <;> simp [h3])
      (by
        intro x hx
        rcases List.mem_append.1 hx with hx | hx
        · have := h4 x hx
          split <;> linarith
        · rw [List.mem_singleton.1 hx]
          split <;> linarith)
    exact ⟨a', b', e, by simpa using h⟩

theorem row_ok {e : Key × List ℚ} (h : e.2 ≠ []) : ∃ r, row e = .ok r ∧ r.key = e.1 ∧ Describes r e.2 := by
  obtain ⟨k, ts⟩ := e
  cases ts with
  | nil => exact absurd rfl h
  | cons t ts =>
    obtain ⟨a, b, h1, h2, h3, h4, h5⟩ := minmax_ok t ts
    refine ⟨⟨k, a, (t :: ts).sum / (t :: ts).length, b⟩, ?_, rfl, h2, h3, h4, h5, ?_⟩
    · unfold row average
      rw [h1, res_bind_ok, if_neg (by simp), res_bind_ok, foldl_add, zero_add]
      rfl
    · have : ((t :: ts).length : ℚ) ≠ 0 := by simp only [List.length_cons]; positivity
      field_simp

theorem mapM_rows {m : Table} (h : ∀ e ∈ m, e.2 ≠ []) : ∃ rs, rows m = .ok rs ∧ List.Forall₂ (fun e r => r.key = e.1 ∧ Describes r e.2) m rs := by
  unfold rows
  induction m with
  | nil => exact ⟨[], rfl, .nil⟩
  | cons e m ih =>
    obtain ⟨rs, h1, h2⟩ := ih fun e he => h e (List.mem_cons_of_mem _ he)
    obtain ⟨r, h3, h4⟩ := row_ok (h e List.mem_cons_self)
    exact ⟨r :: rs, by rw [List.mapM_cons, h3, res_bind_ok, h1, res_bind_ok]; rfl, .cons h4 h2⟩

/-- C121. After any history of recorded times the report has one line for every configuration with a recorded time, ordered by file, version and number of threads; the line shows the smallest, the mean and the largest of
exactly the times recorded for the configuration, and the mean lies between the other two. -/
theorem report_correct (h : List (Key × ℚ)) : ∃ rs, rows (after h) = .ok rs ∧ (rs.map Row.key).Pairwise (· < ·) ∧ (∀ k, k ∈ rs.map Row.key ↔ samplesOf h k ≠ []) ∧
    ∀ r ∈ rs, Describes r (samplesOf h r.key) ∧ r.min ≤ r.avg ∧ r.avg ≤ r.max := by
  obtain ⟨hs, hf, hn⟩ := after_ok h
  obtain ⟨rs, h1, h2⟩ := mapM_rows hn
  generalize after h = m at hs hf hn h1 h2
  have hk : rs.map Row.key = m.map Prod.fst := by
    clear h1 hf hs hn
    induction h2 with
    | nil => rfl
    | cons a _ ih => rw [List.map_cons, List.map_cons, ih, a.1]
  refine ⟨rs, h1, ?_, fun k => ?_, fun r hr => ?_⟩
  · rw [hk]
    exact List.pairwise_map.2 hs
  · rw [hk, ← hf]
    constructor
    · intro hm
      obtain ⟨e, he, rfl⟩ := List.mem_map.1 hm
      rw [find_mem hs he]
      exact hn e he
    · intro hne
      by_contra hno
      apply hne
      unfold find
      rw [List.filter_eq_nil_iff.2 (fun e he => by
        have : e.1 ≠ k := fun hek => hno (List.mem_map.2 ⟨e, he, hek⟩)
        simpa using this)]
      rfl
  · have : ∃ e ∈ m, r.key = e.1 ∧ Describes r e.2 := by
      clear h1 hf hs hn hk
      induction h2 with
      | nil => simp at hr
      | cons a _ ih =>
        rcases List.mem_cons.1 hr with rfl | hr
        · exact ⟨_, List.mem_cons_self, a⟩
        · obtain ⟨e, he, hd⟩ := ih hr
          exact ⟨e, List.mem_cons_of_mem _ he, hd⟩
    obtain ⟨e, he, hk, hd⟩ := this
    rw [hk, ← hf, find_mem hs he]
    refine ⟨hd, ?_⟩
    obtain ⟨d1, d2, d3, d4, d5⟩ := hd
    have hpos : (0 : ℚ) < e.2.length := by
      have := List.length_pos_iff.2 (hn e he)
      exact_mod_cast this
    have low : ∀ (l : List ℚ) (a : ℚ), (∀ t ∈ l, a ≤ t) → a * l.length ≤ l.sum := by
      intro l a hl
      induction l with
      | nil => simp
      | cons x l ih =>
        have h1 := hl x List.mem_cons_self
        have h2 := ih fun t ht => hl t (List.mem_cons_of_mem _ ht)
        simp only [List.length_cons, List.sum_cons, Nat.cast_add, Nat.cast_one]
        linarith
    have high : ∀ (l : List ℚ) (a : ℚ), (∀ t ∈ l, t ≤ a) → l.sum ≤ a * l.length := by
      intro l a hl
      induction l with
      | nil => simp
      | cons x l ih =>
        have h1 := hl x List.mem_cons_self
        have h2 := ih fun t ht => hl t (List.mem_cons_of_mem _ ht)
        simp only [List.length_cons, List.sum_cons, Nat.cast_add, Nat.cast_one]
        linarith
    constructor
    · have := low _ _ d2
      rw [← d5] at this
      exact le_of_mul_le_mul_right this hpos
    · have := high _ _ d4
      rw [← d5] at this
      exact le_of_mul_le_mul_right this hpos

theorem width_ge (m : Table) (n : Nat) : n ≤ m.foldl (fun n e => Nat.max n (ofLex e.1).1.length) n ∧ ∀ e ∈ m, (ofLex e.1).1.length ≤ m.foldl (fun n e => Nat.max n (ofLex e.1).1.length) n := by
  induction m generalizing n with
  | nil => simp
  | cons a m ih =>
    obtain ⟨h1, h2⟩ := ih (Nat.max n (ofLex a.1).1.length)
    rw [List.foldl_cons]
    refine ⟨le_trans (Nat.le_max_left _ _) h1, fun e he => ?_⟩
    rcases List.mem_cons.1 he with rfl | he
    · exact le_trans (Nat.le_max_right _ _) h1
    · exact h2 e he

/-- C121. The first column, the heading included, is equally wide in all lines and shows the whole file name, with at least two blanks behind it. -/
theorem report_aligned (m : Table) : ∃ w, (∀ c ∈ firstColumn m, c.length = w) ∧
    List.Forall₂ (fun s c => ∃ k, 2 ≤ k ∧ c = s ++ List.replicate k 32) (("File".toList.map Char.toNat) :: m.map fun e => (ofLex e.1).1) (firstColumn m) := by
  obtain ⟨h1, h2⟩ := width_ge m 4
  have h1 : 4 ≤ width m := h1
  have h2 : ∀ e ∈ m, (ofLex e.1).1.length ≤ width m := h2
  refine ⟨width m + 2, ?_, ?_⟩
  · intro c hc
    unfold firstColumn padded at hc
    rcases List.mem_cons.1 hc with rfl | hc
    · simp; omega
    · obtain ⟨e, he, rfl⟩ := List.mem_map.1 hc
      have := h2 e he
      simp; omega
  · unfold firstColumn
    refine .cons ⟨_, ?_, rfl⟩ ?_
    · show 2 ≤ width m + 2 - 4
      omega
    · rw [List.forall₂_map_left_iff, List.forall₂_map_right_iff, List.forall₂_same]
      intro e he
      have := h2 e he
      exact ⟨_, by omega, rfl⟩

/-- Two configurations, three times. -/
example : ∃ rs, rows (after [(toLex ([98], toLex (1, 4)), 3), (toLex ([97], toLex (2, 4)), 5), (toLex ([98], toLex (1, 4)), 1)]) = .ok rs ∧ rs.length = 2 := by
  obtain ⟨rs, h1, h2⟩ := mapM_rows (after_ok [(toLex ([98], toLex (1, 4)), 3), (toLex ([97], toLex (2, 4)), 5), (toLex ([98], toLex (1, 4)), 1)]).2.2
  exact ⟨rs, h1, h2.length_eq.symm.trans (by decide +kernel)⟩

end NW.Times
