import Verif.Spec.MatrixMarket
import Verif.Model.MatrixMarket
import Verif.Props.EdgeList

/-!
# Reading words and numerals off a text
-/

namespace NW.MM
open NW.Spec

theorem isSpace_eq (c : Char) : isSpace c = blank c := rfl

theorem words_blank_append {pre : List Char} (h : ∀ c ∈ pre, blank c = true) (cs : List Char) : words (pre ++ cs) = words cs := by
  induction pre with
  | nil => rfl
  | cons c pre ih =>
    rw [List.cons_append, words, if_pos (h c (by simp))]
    exact ih fun d hd => h d (by simp [hd])

theorem words_eq_nil {cs : List Char} (h : words cs = []) : ∀ c ∈ cs, blank c = true := by
  induction cs with
  | nil => simp
  | cons c cs ih =>
    rw [words] at h
    split at h
    · rename_i hb
      intro d hd
      rcases List.mem_cons.1 hd with rfl | hd
      · exact hb
      · exact ih h d hd
    · exfalso
      split at h
      · cases h
      · cases hw : words cs with
        | nil => rw [hw] at h; cases h
        | cons t ts => rw [hw] at h; cases h

theorem dropWhile_all {p : Char → Bool} {cs : List Char} (h : ∀ c ∈ cs, p c = true) : cs.dropWhile p = [] := by
  induction cs with
  | nil => rfl
  | cons c cs ih => rw [List.dropWhile_cons_of_pos (h c (by simp))]; exact ih fun d hd => h d (by simp [hd])

theorem words_cons {cs t : List Char} {ts : List (List Char)} (h : words cs = t :: ts) :
    ∃ pre rest, cs = pre ++ (t ++ rest) ∧ (∀ c ∈ pre, blank c = true) ∧ t ≠ [] ∧ (∀ c ∈ t, blank c = false) ∧
      (rest = [] ∨ ∃ d r, rest = d :: r ∧ blank d = true) ∧ words rest = ts := by
  induction cs generalizing t ts with
  | nil => cases h
  | cons c cs ih =>
    rw [words] at h
    split at h
    · rename_i hb
      obtain ⟨pre, rest, h1, h2, h3⟩ := ih h
      refine ⟨c :: pre, rest, by rw [h1]; rfl, ?_, h3⟩
      intro d hd
      rcases List.mem_cons.1 hd with rfl | hd
      · exact hb
      · exact h2 d hd
    · rename_i hb
      have hb : blank c = false := by simpa using hb
      split at h
      · rename_i ha
        cases h
        refine ⟨[], cs, rfl, by simp, by simp, by simpa using hb, ?_, rfl⟩
        cases cs with
        | nil => exact .inl rfl
        | cons d r => exact .inr ⟨d, r, rfl, ha⟩
      · rename_i ha
        cases cs with
        | nil => exact absurd rfl ha
        | cons d r =>
          have hd : blank d = false := by simpa using ha
          cases hw : words (d :: r) with
          | nil =>
            have := words_eq_nil hw d (by simp)
            rw [hd] at this; cases this
          | cons t' ts' =>
            rw [hw] at h
            cases h
            obtain ⟨pre, rest, h1, h2, h3, h4, h5⟩ := ih hw
            have hpre : pre = [] := by
              cases pre with
              | nil => rfl
              | cons p pre =>
                rw [List.cons_append] at h1
                injection h1 with h1 _
                rw [h1] at hd
                rw [h2 p (by simp)] at hd; cases hd
            subst hpre
            refine ⟨[], rest, by rw [h1]; rfl, by simp, by simp, ?_, h5⟩
            intro x hx
            rcases List.mem_cons.1 hx with rfl | hx
            · exact hb
            · exact h4 x hx

/-- The words of one word followed by the end or white space. -/
theorem words_word {t rest : List Char} (h0 : t ≠ []) (h1 : ∀ c ∈ t, blank c = false) (h2 : rest = [] ∨ ∃ d r, rest = d :: r ∧ blank d = true) :
    words (t ++ rest) = t :: words rest := by
  induction t with
  | nil => exact absurd rfl h0
  | cons c t ih =>
    have hc : ¬ blank c = true := by rw [h1 c (by simp)]; simp
    rw [List.cons_append, words, if_neg hc]
    cases t with
    | nil =>
      rcases h2 with rfl | ⟨d, r, rfl, hd⟩
      · rfl
      · rw [if_pos (by simpa using hd)]; rfl
    | cons d t =>
      have hd : ¬ blank d = true := by rw [h1 d (by simp)]; simp
      have := ih (by simp) fun x hx => h1 x (by simp only [List.mem_cons] at hx ⊢; tauto)
      rw [this, List.cons_append, if_neg (by simpa using hd)]
      rfl

theorem words_append (a b : List Char) {c : Char} (hc : blank c = true) : words (a ++ c :: b) = words a ++ words b := by
  generalize hw : words a = ts
  induction ts generalizing a with
  | nil =>
    rw [words_blank_append (words_eq_nil hw), words, if_pos hc]; rfl
  | cons t ts ih =>
    obtain ⟨pre, rest, h1, h2, h3, h4, h5, h6⟩ := words_cons hw
    rw [h1, List.append_assoc, words_blank_append h2, List.append_assoc, words_word h3 h4, ih rest h6, List.cons_append]
    rcases h5 with rfl | ⟨d, r, rfl, hd⟩
    · exact .inr ⟨c, b, rfl, hc⟩
    · exact .inr ⟨d, r ++ c :: b, rfl, hd⟩

theorem words_snoc_blank (a : List Char) {c : Char} (hc : blank c = true) : words (a ++ [c]) = words a := by
  rw [words_append a [] hc, words, List.append_nil]

theorem dropWhile_blank {pre t rest : List Char} (h1 : ∀ c ∈ pre, blank c = true) (h2 : t ≠ []) (h3 : ∀ c ∈ t, blank c = false) :
    (pre ++ (t ++ rest)).dropWhile isSpace = t ++ rest := by
  rw [List.dropWhile_append_of_pos (by intro c hc; exact h1 c hc)]
  cases t with
  | nil => exact absurd rfl h2
  | cons c t =>
    rw [List.cons_append, List.dropWhile_cons_of_neg]
    rw [isSpace_eq, h3 c (by simp)]; simp

theorem takeWhile_word {p : Char → Bool} {t rest : List Char} (h1 : ∀ c ∈ t, p c = true) (h2 : rest = [] ∨ ∃ d r, rest = d :: r ∧ p d = false) :
    (t ++ rest).takeWhile p = t ∧ (t ++ rest).dropWhile p = rest := by
  rw [List.takeWhile_append_of_pos h1, List.dropWhile_append_of_pos h1]
  rcases h2 with rfl | ⟨d, r, rfl, hd⟩
  · simp
  · rw [List.takeWhile_cons_of_neg (by rw [hd]; simp), List.dropWhile_cons_of_neg (by rw [hd]; simp)]
    simp

/-- `>>` to a string takes the next word. -/
theorem readWord_words {s : In} (hg : s.good = true) {t : List Char} {ts : List (List Char)} (h : words s.chars = t :: ts) :
    ∃ rest, readWord s = (some t, ⟨rest, true⟩) ∧ words rest = ts := by
  obtain ⟨pre, rest, h1, h2, h3, h4, h5, h6⟩ := words_cons h
  have hd : s.chars.dropWhile isSpace = t ++ rest := by rw [h1]; exact dropWhile_blank h2 h3 h4
  refine ⟨rest, ?_, h6⟩
  unfold readWord
  rw [hg, if_neg (by simp), hd]
  have ht := takeWhile_word (p := fun c => !isSpace c) (t := t) (rest := rest) (by intro c hc; rw [isSpace_eq, h4 c hc]; rfl) (by
    rcases h5 with h5 | ⟨d, r, h5, hb⟩
    · exact .inl h5
    · exact .inr ⟨d, r, h5, by rw [isSpace_eq, hb]; rfl⟩)
  cases t with
  | nil => exact absurd rfl h3
  | cons c t =>
    rw [List.cons_append] at ht ⊢
    simp only [ht.1, ht.2]

theorem readWord_nil {s : In} (h : words s.chars = []) : (readWord s).1 = none := by
  unfold readWord
  split
  · rfl
  · have : s.chars.dropWhile isSpace = [] := dropWhile_all (words_eq_nil h)
    rw [this]

theorem zero_toNat : '0'.toNat = 48 := rfl

theorem digitsVal_eq (ds : List Char) (acc : Nat) : digitsVal acc ds = ds.foldl (fun a c => 10 * a + (c.toNat - '0'.toNat)) acc := by
  rw [zero_toNat]
  induction ds generalizing acc with
  | nil => rfl
  | cons c ds ih =>
    show digitsVal (acc * 10 + (c.toNat - 48)) ds = _
    rw [Nat.mul_comm acc 10]
    exact ih _

theorem blank_not_digit {c : Char} (h : blank c = true) : isDigit c = false := by
  unfold blank at h
  simp only [Bool.or_eq_true, decide_eq_true_eq] at h
  rcases h with ((((rfl | rfl) | rfl) | rfl) | rfl) | rfl <;> decide

theorem takeSign_digit {c : Char} {cs : List Char} (h : isDigit c = true) : takeSign (c :: cs) = (false, c :: cs) := by
  unfold takeSign
  split
  · rename_i h'; injection h' with h1 _; subst h1; exact absurd h (by decide)
  · rename_i h'; injection h' with h1 _; subst h1; exact absurd h (by decide)
  · rfl

/-- `>>` to a `size_t` takes the next numeral. -/
theorem readSize_words {s : In} (hg : s.good = true) {t : List Char} {ts : List (List Char)} (h : words s.chars = t :: ts) {n : Nat}
    (hn : Numeral t n) (hfit : n < 2 ^ 64) : ∃ rest, readSize s = (some n, ⟨rest, true⟩) ∧ words rest = ts := by
  obtain ⟨pre, rest, h1, h2, h3, h4, h5, h6⟩ := words_cons h
  have hd : s.chars.dropWhile isSpace = t ++ rest := by rw [h1]; exact dropWhile_blank h2 h3 h4
  obtain ⟨_, hdig, hval⟩ := hn
  have hdig' : ∀ c ∈ t, isDigit c = true := by
    intro c hc; obtain ⟨a, b⟩ := hdig c hc; simp [isDigit, a, b]
  refine ⟨rest, ?_, h6⟩
  have ht := takeWhile_word (p := isDigit) (t := t) (rest := rest) hdig' (by
    rcases h5 with h5 | ⟨d, r, h5, hb⟩
    · exact .inl h5
    · exact .inr ⟨d, r, h5, blank_not_digit hb⟩)
  unfold readSize
  rw [hg, if_neg (by simp), hd]
  cases t with
  | nil => exact absurd rfl h3
  | cons c t =>
    rw [List.cons_append] at ht ⊢
    simp only [takeSign_digit (hdig' c (by simp)), ht.1, ht.2, digitsVal_eq, hval]
    rw [if_neg (by simp), if_neg (by omega)]
    simp

theorem readSize_nil {s : In} (h : words s.chars = []) : (readSize s).1 = none := by
  unfold readSize
  split
  · rfl
  · have : s.chars.dropWhile isSpace = [] := dropWhile_all (words_eq_nil h)
    rw [this]

theorem headerWords_words {ts : List (List Char)} {s : In} (hg : s.good = true) (h : words s.chars = ts) : headerWords ts.length s = ts := by
  induction ts generalizing s with
  | nil => rfl
  | cons t ts ih =>
    obtain ⟨rest, h1, h2⟩ := readWord_words hg h
    rw [List.length_cons, headerWords, h1, ih rfl h2]
    rfl

/-! ## Lines -/

theorem getline_line {l cs : List Char} (h : '\n' ∉ l) : getline (l ++ '\n' :: cs) = some (l, cs) := by
  have ht := takeWhile_word (p := fun c : Char => decide (c ≠ '\n')) (t := l) (rest := '\n' :: cs)
    (by intro c hc; simp only [decide_eq_true_eq]; exact fun e => h (e ▸ hc)) (.inr ⟨_, _, rfl, by simp⟩)
  unfold getline
  rw [if_neg (by simp), ht.1, ht.2]
  rfl

theorem getline_last {l : List Char} (h0 : l ≠ []) (h : '\n' ∉ l) : getline l = some (l, []) := by
  have ht := takeWhile_word (p := fun c : Char => decide (c ≠ '\n')) (t := l) (rest := [])
    (by intro c hc; simp only [decide_eq_true_eq]; exact fun e => h (e ▸ hc)) (.inl rfl)
  rw [List.append_nil] at ht
  unfold getline
  rw [if_neg (by simpa using h0), ht.1, ht.2]
  rfl

theorem HasLines.head {l : List Char} {ls : List (List Char)} {cs : List Char} (h : HasLines (l :: ls) cs) :
    ∃ rest, getline cs = some (l, rest) ∧ HasLines ls rest := by
  cases h with
  | last h0 hl => exact ⟨[], getline_last h0 hl, .nil _⟩
  | cons hl h => exact ⟨_, getline_line hl, h⟩

theorem skipComments_step {cs l rest : List Char} (h : getline cs = some (l, rest)) :
    skipComments cs = if l.head? = some '%' then skipComments rest else (l, rest) := by
  rw [skipComments]
  split
  · rename_i h'; rw [h] at h'; cases h'
  · rename_i h'; rw [h] at h'; cases h'; rfl

theorem skipComments_lines {comments : List (List Char)} {size : List Char} {ls : List (List Char)} {cs : List Char}
    (h : HasLines (comments ++ size :: ls) cs) (hc : ∀ l ∈ comments, l.head? = some '%') (hs : size.head? ≠ some '%') :
    ∃ rest, skipComments cs = (size, rest) ∧ HasLines ls rest := by
  induction comments generalizing cs with
  | nil =>
    obtain ⟨rest, h1, h2⟩ := HasLines.head h
    exact ⟨rest, by rw [skipComments_step h1, if_neg hs], h2⟩
  | cons c comments ih =>
    obtain ⟨rest, h1, h2⟩ := HasLines.head h
    rw [skipComments_step h1, if_pos (hc c (by simp))]
    exact ih h2 fun l hl => hc l (by simp [hl])

/-- The words of a text that begins with given lines begin with the words of the lines. -/
theorem words_lines {ls : List (List Char)} {cs : List Char} (h : HasLines ls cs) : ∃ more, words cs = ls.flatMap words ++ more := by
  induction h with
  | nil cs => exact ⟨words cs, rfl⟩
  | last h hl => exact ⟨[], by simp⟩
  | cons hl h ih =>
    obtain ⟨more, hm⟩ := ih
    exact ⟨more, by rw [words_append _ _ (by decide), hm, List.flatMap_cons, List.append_assoc]⟩

end NW.MM
