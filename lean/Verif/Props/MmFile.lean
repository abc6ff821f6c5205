import Verif.Model.MmFile
import Verif.Lemmas.MatrixMarket
import Mathlib.Data.List.Forall2

/-!
# C103: a memory-mapped Matrix Market file can be read in parts
-/

namespace NW.MmFile
open Spec MM

/-! ## Specification -/

/-- The text of the lines, each ended by a newline. -/
def textOf (lines : List (List Char)) : List Char := (lines.map (· ++ ['\n'])).flatten

/-- A header (its words in upper or lower case), comment lines, a line with the sizes, and one line per entry have the content `F`.
Lines before the entries have at most 1023 characters, and the numbers are less than 2^31. -/
structure Parts (F : MMFile) (header : List Char) (comments : List (List Char)) (size : List Char) (lines : List (List Char)) : Prop where
  newline : ∀ l ∈ header :: comments ++ size :: lines, '\n' ∉ l
  short : ∀ l ∈ header :: comments ++ [size], l.length ≤ 1023
  banner : ∃ a b c d, words header = [kwBanner, a, b, c, d] ∧ a.map Char.toLower = "matrix".toList ∧ b.map Char.toLower = "coordinate".toList ∧ c.map Char.toLower = F.field ∧
    d.map Char.toLower = if F.symmetric then kwSymmetric else kwGeneral
  field : F.field = "real".toList ∨ F.field = "integer".toList ∨ F.field = kwPattern ∨ F.field = "complex".toList
  comment : ∀ l ∈ comments, l.head? = some '%'
  sizes : ∃ n m k, words size = [n, m, k] ∧ Numeral n F.rows ∧ Numeral m F.cols ∧ Numeral k F.entries.length
  entries : List.Forall₂ (EntryLine (F.field = kwPattern)) F.entries lines
  rows : F.rows < 2 ^ 31
  cols : F.cols < 2 ^ 31
  count : F.entries.length < 2 ^ 31
  small : ∀ e ∈ F.entries, e.1 < 2 ^ 31 ∧ e.2.1 < 2 ^ 31

/-- `text` is a coordinate file with content `F`, and every line of it ends with a newline. -/
def Lined (text : List Char) (F : MMFile) : Prop := ∃ header comments size lines, Parts F header comments size lines ∧ text = textOf (header :: comments ++ size :: lines)

/-- The same with a line of white space between the comments and the sizes (which the format allows). -/
def BlankLined (text : List Char) (F : MMFile) : Prop :=
  ∃ header comments spaces size lines, Parts F header comments size lines ∧ (∀ c ∈ spaces, blank c = true) ∧ '\n' ∉ spaces ∧ spaces.length ≤ 1023 ∧
    text = textOf (header :: comments ++ spaces :: size :: lines)

/-- What is asked of the reader of the values: either it reads nothing, or the file has values, and it reads the next word, which stands for the value `val w`. -/
def Reads {β : Type} (pattern : Prop) (vals : List Char → Res β) (val : List Char → β) : Prop :=
  (∃ x, (∀ cs, vals cs = .ok x) ∧ ∀ w, val w = x) ∨
  (¬ pattern ∧ ∀ pre w d rest, (∀ c ∈ pre, blank c = true) → w ≠ [] → (∀ c ∈ w, blank c = false) → blank d = true → vals (pre ++ (w ++ d :: rest)) = .ok (val w))

/-- What is asked of the approximation in floating point: it is monotone and inside the part of the file with the entries. -/
structure Approx (f : File) (approx : Nat → Nat) : Prop where
  mono : ∀ a b : Nat, 0 < a → a ≤ b → (b : Int) < f.nnz → approx a ≤ approx b
  range : ∀ a : Nat, 0 < a → (a : Int) < f.nnz → f.first ≤ approx a ∧ approx a < f.text.length

/-- The entries as they are read: with zero-based coordinates. -/
def entriesOf {β : Type} (val : List Char → β) (F : MMFile) : List (Int × Int × β) := F.entries.map fun e => ((e.1 : Int) - 1, (e.2.1 : Int) - 1, val e.2.2)

/-! ## Numbers -/

theorem asInt_small {n : Nat} (h : n < 2 ^ 31) : asInt false n = n := by
  unfold asInt
  simp only [Bool.false_eq_true, ↓reduceIte]
  omega

theorem digits_of {t : List Char} {n : Nat} (h : Numeral t n) : ∀ c ∈ t, isDigit c = true := by
  intro c hc
  obtain ⟨a, b⟩ := h.2.1 c hc
  simp [isDigit, a, b]

theorem not_blank_of {t : List Char} {n : Nat} (h : Numeral t n) : ∀ c ∈ t, blank c = false := by
  intro c hc
  cases hb : blank c with
  | false => rfl
  | true =>
    have := blank_not_digit hb
    rw [digits_of h c hc] at this
    cases this

theorem scanInt_num {pre t r : List Char} {n : Nat} (hpre : ∀ c ∈ pre, blank c = true) (ht : Numeral t n) (hn : n < 2 ^ 31) (hr : r = [] ∨ ∃ d r', r = d :: r' ∧ blank d = true) :
    scanInt (pre ++ (t ++ r)) = .value n r := by
  have hd : (pre ++ (t ++ r)).dropWhile isSpace = t ++ r := dropWhile_blank hpre ht.1 (not_blank_of ht)
  have hw := takeWhile_word (p := isDigit) (t := t) (rest := r) (digits_of ht) (by
    rcases hr with h | ⟨d, r', h, hb⟩
    · exact .inl h
    · exact .inr ⟨d, r', h, blank_not_digit hb⟩)
  have hdig := digits_of ht
  unfold scanInt
  rw [hd]
  obtain ⟨h0, -, hval⟩ := ht
  cases t with
  | nil => exact absurd rfl h0
  | cons c t =>
    rw [List.cons_append] at hw ⊢
    simp only [takeSign_digit (hdig c (by simp)), hw.1, hw.2, digitsVal_eq, hval]
    rw [if_neg (by simp), asInt_small hn]

theorem strtol_num {pre t r : List Char} {n : Nat} {d : Char} (hpre : ∀ c ∈ pre, blank c = true) (ht : Numeral t n) (hn : n < 2 ^ 31) (hd : blank d = true) :
    strtol (pre ++ (t ++ d :: r)) = .ok ((n : Int), d :: r) := by
  have hw0 : (pre ++ (t ++ d :: r)).dropWhile isSpace = t ++ d :: r := dropWhile_blank hpre ht.1 (not_blank_of ht)
  have hw := takeWhile_word (p := isDigit) (t := t) (rest := d :: r) (digits_of ht) (.inr ⟨d, r, rfl, blank_not_digit hd⟩)
  have hdig := digits_of ht
  unfold strtol
  rw [hw0]
  obtain ⟨h0, -, hval⟩ := ht
  cases t with
  | nil => exact absurd rfl h0
  | cons c t =>
    rw [List.cons_append] at hw ⊢
    simp only [takeSign_digit (hdig c (by simp)), hw.1, hw.2, digitsVal_eq, hval]
    rw [if_neg (by simp), asInt_small hn]

/-- What follows a word in a line that ends with a newline. -/
theorem follow {rest more : List Char} (h : rest = [] ∨ ∃ d r, rest = d :: r ∧ blank d = true) : ∃ d r, rest ++ '\n' :: more = d :: r ∧ blank d = true := by
  rcases h with rfl | ⟨d, r, rfl, hd⟩
  · exact ⟨'\n', more, rfl, by decide⟩
  · exact ⟨d, r ++ '\n' :: more, rfl, hd⟩

/-- Three numbers in a line. -/
theorem scan3_line {l more : List Char} {a b c : List Char} {na nb nc : Nat} (hl : words l = [a, b, c]) (ha : Numeral a na) (hb : Numeral b nb) (hc : Numeral c nc) (ha' : na < 2 ^ 31)
    (hb' : nb < 2 ^ 31) (hc' : nc < 2 ^ 31) : ∃ tail, scan3 (l ++ '\n' :: more) = .all na nb nc (tail ++ '\n' :: more) ∧ (∀ x ∈ tail, blank x = true) ∧ ∃ pre, l = pre ++ tail := by
  obtain ⟨p1, r1, e1, hp1, -, -, hr1, w1⟩ := words_cons hl
  obtain ⟨p2, r2, e2, hp2, -, -, hr2, w2⟩ := words_cons w1
  obtain ⟨p3, r3, e3, hp3, -, -, hr3, w3⟩ := words_cons w2
  refine ⟨r3, ?_, words_eq_nil w3, ?_⟩
  · have s1 : scanInt (l ++ '\n' :: more) = .value na (r1 ++ '\n' :: more) := by
      rw [e1, List.append_assoc, List.append_assoc]
      exact scanInt_num hp1 ha ha' (.inr (follow hr1))
    have s2 : scanInt (r1 ++ '\n' :: more) = .value nb (r2 ++ '\n' :: more) := by
      rw [e2, List.append_assoc, List.append_assoc]
      exact scanInt_num hp2 hb hb' (.inr (follow hr2))
    have s3 : scanInt (r2 ++ '\n' :: more) = .value nc (r3 ++ '\n' :: more) := by
      rw [e3, List.append_assoc, List.append_assoc]
      exact scanInt_num hp3 hc hc' (.inr (follow hr3))
    unfold scan3
    simp only [s1, s2, s3]
  · exact ⟨p1 ++ (a ++ (p2 ++ (b ++ (p3 ++ c)))), by rw [e1, e2, e3]; simp [List.append_assoc]⟩

/-- Dereferencing an iterator in front of a line with an entry. -/
theorem deref_line {β : Type} {vals : List Char → Res β} {val : List Char → β} {pattern : Prop} (hv : Reads pattern vals val) {e : Nat × Nat × List Char} {l : List Char} (hl : EntryLine pattern e l)
    (h1 : e.1 < 2 ^ 31) (h2 : e.2.1 < 2 ^ 31) {text : List Char} {i : Nat} {pre more : List Char} (hpre : ∀ c ∈ pre, blank c = true) (ht : text.drop i = pre ++ (l ++ '\n' :: more)) :
    deref vals text i = .ok ((e.1 : Int) - 1, (e.2.1 : Int) - 1, val e.2.2) := by
  obtain ⟨r, c, hr, hc, hw⟩ := hl
  obtain ⟨ts, hts⟩ : ∃ ts, words l = r :: c :: ts := by
    rcases hw with ⟨-, h⟩ | ⟨-, h⟩
    · exact ⟨[], h⟩
    · exact ⟨[e.2.2], h⟩
  obtain ⟨p1, r1, e1, hp1, -, -, hr1, w1⟩ := words_cons hts
  obtain ⟨p2, r2, e2, hp2, -, -, hr2, w2⟩ := words_cons w1
  obtain ⟨d1, q1, f1, b1⟩ := follow (more := more) hr1
  obtain ⟨d2, q2, f2, b2⟩ := follow (more := more) hr2
  have s1 : strtol (pre ++ (l ++ '\n' :: more)) = .ok ((e.1 : Int), r1 ++ '\n' :: more) := by
    rw [e1, List.append_assoc, List.append_assoc, f1, ← List.append_assoc]
    exact strtol_num (by
      intro x hx
      rcases List.mem_append.1 hx with hx | hx
      · exact hpre x hx
      · exact hp1 x hx) hr h1 b1
  have s2 : strtol (r1 ++ '\n' :: more) = .ok ((e.2.1 : Int), r2 ++ '\n' :: more) := by
    rw [e2, List.append_assoc, List.append_assoc, f2]
    exact strtol_num hp2 hc h2 b2
  have s3 : vals (r2 ++ '\n' :: more) = .ok (val e.2.2) := by
    rcases hv with ⟨x, hx, hx'⟩ | ⟨hnp, hx⟩
    · rw [hx, hx']
    · rcases hw with ⟨h, -⟩ | ⟨-, h⟩
      · exact absurd h hnp
      · have hts' : ts = [e.2.2] := by rw [hts] at h; simpa using h
        subst hts'
        obtain ⟨p3, r3, e3, hp3, n3, m3, hr3, w3⟩ := words_cons w2
        obtain ⟨d3, q3, f3, b3⟩ := follow (more := more) hr3
        rw [e3, List.append_assoc, List.append_assoc, f3]
        exact hx p3 e.2.2 d3 q3 hp3 n3 m3 b3
  unfold deref
  rw [ht]
  simp only [s1, s2, s3, res_bind_ok, res_pure]

/-! ## Lines -/

theorem textOf_cons (l : List Char) (ls : List (List Char)) : textOf (l :: ls) = l ++ '\n' :: textOf ls := by simp [textOf]

theorem textOf_append (a b : List (List Char)) : textOf (a ++ b) = textOf a ++ textOf b := by simp [textOf]

/-- The position behind the first `k` lines. -/
def pos (first : Nat) (lines : List (List Char)) (k : Nat) : Nat := first + (textOf (lines.take k)).length

theorem pos_succ {first : Nat} {lines : List (List Char)} {k : Nat} {l : List Char} (h : lines[k]? = some l) : pos first lines (k + 1) = pos first lines k + l.length + 1 := by
  obtain ⟨hk, rfl⟩ := List.getElem?_eq_some_iff.1 h
  unfold pos
  rw [List.take_succ_eq_append_getElem hk, textOf_append, List.length_append]
  simp [textOf]
  omega

theorem pos_lt {first : Nat} {lines : List (List Char)} {j k : Nat} (hjk : j < k) (hk : k ≤ lines.length) : pos first lines j < pos first lines k := by
  induction k with
  | zero => omega
  | succ k ih =>
    have := pos_succ (first := first) (List.getElem?_eq_getElem (show k < lines.length by omega))
    rcases Nat.lt_or_ge j k with h | h
    · have := ih h (by omega); omega
    · have : j = k := by omega
      subst this; omega

theorem drop_pos {hd text : List Char} {lines : List (List Char)} (ht : text = hd ++ textOf lines) (k : Nat) : text.drop (pos hd.length lines k) = textOf (lines.drop k) := by
  conv_lhs => rw [ht, ← List.take_append_drop k lines, textOf_append, ← List.append_assoc]
  unfold pos
  rw [List.drop_left' (by simp [List.take_append_drop])]

theorem next_pos {hd text : List Char} {lines : List (List Char)} (ht : text = hd ++ textOf lines) (hn : ∀ l ∈ lines, '\n' ∉ l) {k : Nat} (hk : k < lines.length) :
    next text (pos hd.length lines k) = .ok (pos hd.length lines (k + 1)) := by
  unfold next
  rw [drop_pos ht, List.drop_eq_getElem_cons hk, textOf_cons]
  have hw := takeWhile_word (p := fun c : Char => decide (c ≠ '\n')) (t := lines[k]) (rest := '\n' :: textOf (lines.drop (k + 1)))
    (by intro c hc; simp only [decide_eq_true_eq]; exact fun e => hn _ (List.getElem_mem hk) (e ▸ hc)) (.inr ⟨_, _, rfl, by simp⟩)
  simp only [hw.1]
  rw [if_pos (by simp), pos_succ (List.getElem?_eq_getElem hk)]

theorem pos_end {hd text : List Char} {lines : List (List Char)} (ht : text = hd ++ textOf lines) : pos hd.length lines lines.length = text.length := by
  unfold pos
  rw [List.take_length, ht, List.length_append]

/-- The positions where a line may begin. -/
def Bd (text : List Char) (first p : Nat) : Prop := p = first ∨ (first < p ∧ text[p - 1]? = some '\n')

theorem lineStart_below {text : List Char} {first a : Nat} (h : a < first) : lineStart text first a = .ok (a + 1) := by
  cases a with
  | zero => rw [lineStart, if_neg (by omega)]; rfl
  | succ a => rw [lineStart, if_neg (by omega)]; rfl

theorem lineStart_spec {text : List Char} {first a : Nat} (h1 : first ≤ a) (h2 : a < text.length) :
    ∃ r, lineStart text first a = .ok r ∧ Bd text first r ∧ r ≤ a + 1 ∧ ∀ p, Bd text first p → p ≤ a + 1 → p ≤ r := by
  induction a with
  | zero =>
    have h0 : first = 0 := by omega
    subst h0
    rw [lineStart, if_pos (Nat.le_refl 0), vget_of_lt h2, res_bind_ok]
    by_cases hc : text[0] = '\n'
    · rw [if_neg (by simpa using hc)]
      exact ⟨1, rfl, .inr ⟨by omega, by rw [List.getElem?_eq_getElem h2, hc]⟩, Nat.le_refl _, fun p _ h => h⟩
    · rw [if_pos hc]
      refine ⟨0, rfl, .inl rfl, by omega, ?_⟩
      rintro p (h | ⟨h, h'⟩) hp
      · omega
      · have : p = 1 := by omega
        subst this
        rw [List.getElem?_eq_getElem h2] at h'
        exact absurd (Option.some.inj h') hc
  | succ a ih =>
    rw [lineStart, if_pos h1, vget_of_lt h2, res_bind_ok]
    by_cases hc : text[a + 1] = '\n'
    · rw [if_neg (by simpa using hc)]
      exact ⟨a + 2, rfl, .inr ⟨by omega, by rw [show a + 2 - 1 = a + 1 by omega, List.getElem?_eq_getElem h2, hc]⟩, Nat.le_refl _, fun p _ h => h⟩
    · rw [if_pos hc]
      have hlast : ∀ p, Bd text first p → p ≤ a + 1 + 1 → p ≤ a + 1 := by
        rintro p (h | ⟨h, h'⟩) hp
        · omega
        · by_contra hne
          have : p = a + 2 := by omega
          subst this
          rw [show a + 2 - 1 = a + 1 by omega, List.getElem?_eq_getElem h2] at h'
          exact hc (Option.some.inj h')
      rcases Nat.lt_or_ge a first with hlt | hge
      · exact ⟨a + 1, lineStart_below hlt, .inl (by omega), by omega, hlast⟩
      · obtain ⟨r, e1, e2, e3, e4⟩ := ih hge (by omega)
        exact ⟨r, e1, e2, by omega, fun p hp hle => e4 p hp (hlast p hp hle)⟩

theorem bd_pos_aux {lines : List (List Char)} (hn : ∀ l ∈ lines, '\n' ∉ l) : ∀ q, q ≤ (textOf lines).length → (q = 0 ∨ (textOf lines)[q - 1]? = some '\n') →
    ∃ k, k ≤ lines.length ∧ q = (textOf (lines.take k)).length := by
  induction lines with
  | nil => intro q hq _; exact ⟨0, by simp, by simpa [textOf] using hq⟩
  | cons l ls ih =>
    intro q hq hbd
    by_cases h0 : q = 0
    · exact ⟨0, by simp, by simp [textOf, h0]⟩
    · have hbd := hbd.resolve_left h0
      rw [textOf_cons] at hq hbd
      rcases Nat.lt_trichotomy q (l.length + 1) with h | h | h
      · rw [List.getElem?_append_left (by omega)] at hbd
        exact absurd (List.mem_of_getElem? hbd) (hn l (by simp))
      · exact ⟨1, by simp, by simp [textOf, h]⟩
      · have h1 : (textOf ls)[q - (l.length + 1) - 1]? = some '\n' := by
          rw [List.getElem?_append_right (by omega), show q - 1 - l.length = (q - (l.length + 1) - 1) + 1 by omega, List.getElem?_cons_succ] at hbd
          exact hbd
        obtain ⟨k, hk, hq'⟩ := ih (fun l' hl' => hn l' (by simp [hl'])) (q - (l.length + 1)) (by simp at hq; omega) (.inr h1)
        refine ⟨k + 1, by simp [hk], ?_⟩
        rw [List.take_succ_cons, textOf_cons, List.length_append, List.length_cons]
        omega

theorem bd_pos {hd text : List Char} {lines : List (List Char)} (ht : text = hd ++ textOf lines) (hn : ∀ l ∈ lines, '\n' ∉ l) {p : Nat} (hp : Bd text hd.length p) (hle : p ≤ text.length) :
    ∃ k, k ≤ lines.length ∧ p = pos hd.length lines k := by
  rcases hp with rfl | ⟨h1, h2⟩
  · exact ⟨0, by simp, by simp [pos, textOf]⟩
  · rw [ht, List.getElem?_append_right (by omega)] at h2
    rw [ht, List.length_append] at hle
    obtain ⟨k, hk, hq⟩ := bd_pos_aux hn (p - hd.length) (by omega) (.inr (by rw [show p - hd.length - 1 = p - 1 - hd.length by omega]; exact h2))
    exact ⟨k, hk, by unfold pos; omega⟩

/-! ## Opening -/

theorem piece_line {l cs : List Char} (hl : '\n' ∉ l) : ∀ n, l.length < n → piece n (l ++ '\n' :: cs) = (l ++ ['\n'], cs) := by
  induction l with
  | nil => intro n hn; obtain ⟨n, rfl⟩ : ∃ k, n = k + 1 := ⟨n - 1, by simp at hn; omega⟩; simp [piece]
  | cons c l ih =>
    intro n hn
    obtain ⟨n, rfl⟩ : ∃ k, n = k + 1 := ⟨n - 1, by simp at hn; omega⟩
    have hc : ¬ c = '\n' := fun e => hl (by simp [e])
    rw [List.cons_append, piece, if_neg hc, ih (fun h => hl (by simp [h])) n (by simp at hn; omega)]
    rfl

theorem fgets_line {l cs : List Char} (hl : '\n' ∉ l) (h : l.length ≤ 1023) : fgets (l ++ '\n' :: cs) = some (l ++ ['\n'], cs) := by
  unfold fgets
  rw [if_neg (by simp), piece_line hl 1024 (by omega)]

theorem scanWord_words {cs t : List Char} {ts : List (List Char)} (h : words cs = t :: ts) : ∃ rest, scanWord cs = some (t, rest) ∧ words rest = ts := by
  obtain ⟨rest, h1, h2⟩ := readWord_words (s := ⟨cs, true⟩) rfl h
  refine ⟨rest, ?_, h2⟩
  unfold readWord at h1
  unfold scanWord
  rw [if_neg (by simp)] at h1
  simp only at h1
  split at h1
  · rename_i hd; cases h1
  · rename_i c cs' hd
    rw [hd]
    simp only [Prod.mk.injEq, Option.some.injEq, In.mk.injEq, and_true] at h1
    simp only [h1.1, h1.2]

theorem scanWords_words {cs : List Char} {ts : List (List Char)} (h : words cs = ts) (hlen : ∀ t ∈ ts, t.length < 64) : scanWords ts.length cs = .ok ts := by
  induction ts generalizing cs with
  | nil => rfl
  | cons t ts ih =>
    obtain ⟨rest, h1, h2⟩ := scanWord_words h
    have ht := hlen t (by simp)
    rw [List.length_cons, scanWords, h1]
    simp only
    rw [if_neg (by omega), ih h2 fun t' ht' => hlen t' (by simp [ht'])]
    rfl

theorem comments_loop {comments : List (List Char)} {size rest : List Char} (hn : ∀ l ∈ comments ++ [size], '\n' ∉ l) (hlen : ∀ l ∈ comments ++ [size], l.length ≤ 1023)
    (hc : ∀ l ∈ comments, l.head? = some '%') (hs : size.head? ≠ some '%') : Loop commentBody (textOf comments ++ (size ++ '\n' :: rest)) (.ok (some (size ++ ['\n'], rest))) := by
  induction comments with
  | nil =>
    refine Loop.done ?_
    unfold commentBody
    show (match fgets (size ++ '\n' :: rest) with | none => _ | some (line, rest) => _) = _
    rw [fgets_line (hn size (by simp)) (hlen size (by simp))]
    simp only
    rw [if_neg ?_]
    · rfl
    · cases size with
      | nil => simp
      | cons c size => simpa using hs
  | cons l ls ih =>
    refine Loop.step (s' := textOf ls ++ (size ++ '\n' :: rest)) ?_ (ih (fun l' h => hn l' (by simp only [List.cons_append, List.mem_cons]; exact .inr h))
      (fun l' h => hlen l' (by simp only [List.cons_append, List.mem_cons]; exact .inr h)) fun l' h => hc l' (by simp [h]))
    unfold commentBody
    rw [textOf_cons, List.append_assoc, List.cons_append, fgets_line (hn l (by simp)) (hlen l (by simp))]
    simp only
    rw [if_pos ?_]
    · rfl
    · have := hc l (by simp)
      cases l with
      | nil => simp at this
      | cons c l => simpa using this

theorem head_of_number {l t : List Char} {ts : List (List Char)} {n : Nat} (h : words l = t :: ts) (ht : Numeral t n) : l.head? ≠ some '%' := by
  obtain ⟨pre, rest, e, hpre, -⟩ := words_cons h
  intro hh
  cases pre with
  | nil =>
    cases t with
    | nil => exact absurd rfl ht.1
    | cons c t =>
      rw [e] at hh
      simp only [List.nil_append, List.cons_append, List.head?_cons, Option.some.injEq] at hh
      have := digits_of ht c (by simp)
      rw [hh] at this
      exact absurd this (by decide)
  | cons p pre =>
    rw [e] at hh
    simp only [List.cons_append, List.head?_cons, Option.some.injEq] at hh
    have := hpre p (by simp)
    rw [hh] at this
    exact absurd this (by decide)

/-- The type code that belongs to the content. -/
def typeOf (F : MMFile) : TypeCode :=
  ⟨true, if F.field = "real".toList then .real else if F.field = "complex".toList then .complex else if F.field = kwPattern then .pattern else .integer, if F.symmetric then .symmetric else .general⟩

theorem banner_ok {header rest : List Char} {F : MMFile} (hn : '\n' ∉ header) (hlen : header.length ≤ 1023)
    (hw : ∃ a b c d, words header = [kwBanner, a, b, c, d] ∧ a.map Char.toLower = "matrix".toList ∧ b.map Char.toLower = "coordinate".toList ∧ c.map Char.toLower = F.field ∧
      d.map Char.toLower = if F.symmetric then kwSymmetric else kwGeneral)
    (hf : F.field = "real".toList ∨ F.field = "integer".toList ∨ F.field = kwPattern ∨ F.field = "complex".toList) :
    readBanner (header ++ '\n' :: rest) = .ok (some (typeOf F, rest)) := by
  obtain ⟨a, b, c, d, hw, ha, hb, hc, hd⟩ := hw
  have la : a.length = 6 := by have := congrArg List.length ha; simpa using this
  have lb : b.length = 10 := by have := congrArg List.length hb; simpa using this
  have lc : c.length ≤ 7 := by
    have := congrArg List.length hc
    rw [List.length_map] at this
    rw [this]
    rcases hf with h | h | h | h <;> rw [h] <;> decide
  have ld : d.length ≤ 9 := by
    have := congrArg List.length hd
    rw [List.length_map] at this
    rw [this]
    split <;> decide
  have hsc : scanWords 5 (header ++ ['\n']) = .ok [kwBanner, a, b, c, d] := by
    refine scanWords_words (ts := [kwBanner, a, b, c, d]) (by rw [words_snoc_blank _ (by decide)]; exact hw) ?_
    have : kwBanner.length = 14 := by decide
    intro t ht
    simp only [List.mem_cons, List.not_mem_nil, or_false] at ht
    rcases ht with rfl | rfl | rfl | rfl | rfl <;> omega
  unfold readBanner
  rw [fgets_line hn hlen]
  simp only [hsc, res_bind_ok]
  have h1 : ¬ kwBanner.take 14 ≠ sBanner := by decide
  rw [if_neg h1, if_neg (by unfold lower; rw [ha]; simp), if_neg (by unfold lower; rw [hb]; simp)]
  have hs : parseScheme (lower d) = some (typeOf F).scheme := by
    unfold lower
    rw [hd]
    unfold typeOf
    simp only
    cases F.symmetric <;> rfl
  have hfd : parseField (lower c) = some (typeOf F).field := by
    unfold lower
    rw [hc]
    unfold typeOf
    simp only
    rcases hf with h | h | h | h <;> rw [h] <;> rfl
  rw [hs, hfd]
  simp only [res_pure]
  congr 2
  unfold lower
  rw [hb]
  rfl

theorem gives_ok {σ ρ : Type} {body : σ → Res (σ ⊕ ρ)} {s : σ} {r : ρ} (h : Loop body s (.ok r)) : Run.Gives (Run.loop body s) (· = r) :=
  ⟨⟨_, h⟩, fun _ ho => ⟨r, Loop.det ho h, rfl⟩⟩

/-- An open file with the entries on the lines `lines` behind the text `hd`. -/
structure Opened (text : List Char) (F : MMFile) (hd : List Char) (lines : List (List Char)) (f : File) : Prop where
  same : f.text = text
  split : text = hd ++ textOf lines
  first : f.first = hd.length
  rows : f.rows = F.rows
  cols : f.cols = F.cols
  nnz : f.nnz = F.entries.length
  type : f.type = typeOf F
  newline : ∀ l ∈ lines, '\n' ∉ l
  entries : List.Forall₂ (EntryLine (F.field = kwPattern)) F.entries lines
  small : ∀ e ∈ F.entries, e.1 < 2 ^ 31 ∧ e.2.1 < 2 ^ 31

theorem open_gives {text : List Char} {F : MMFile} (h : Lined text F) : ∃ hd lines, Run.Gives (openFile text) (Opened text F hd lines) := by
  obtain ⟨header, comments, size, lines, ⟨hn, hlen, hw, hf, hc, ⟨n, m, k, hwords, h1, h2, h3⟩, hent, b1, b2, b3, b4⟩, ht⟩ := h
  have hsplit : text = textOf (header :: comments ++ [size]) ++ textOf lines := by rw [ht, ← textOf_append]; simp
  refine ⟨textOf (header :: comments ++ [size]), lines, ?_⟩
  have ht' : text = header ++ '\n' :: (textOf comments ++ (size ++ '\n' :: textOf lines)) := by
    rw [ht, List.cons_append, textOf_cons, textOf_append, textOf_cons]
  unfold openFile
  refine (Run.gives_lift (a := some (typeOf F, textOf comments ++ (size ++ '\n' :: textOf lines))) (Q := (· = some (typeOf F, textOf comments ++ (size ++ '\n' :: textOf lines)))) ?_ rfl).bind ?_
  · rw [ht']
    exact banner_ok (hn _ (by simp)) (hlen _ (by simp)) hw hf
  · rintro _ rfl
    simp only
    rw [if_neg (by simp [typeOf])]
    have hloop := comments_loop (rest := textOf lines) (fun l hl => hn l (by simp at hl ⊢; tauto)) (fun l hl => hlen l (by simp at hl ⊢; tauto)) hc (head_of_number hwords h1)
    obtain ⟨tail, hsc, -, -⟩ := scan3_line (more := []) hwords h1 h2 h3 b1 b2 b3
    have hsizes : Run.Gives (readSizes (textOf comments ++ (size ++ '\n' :: textOf lines))) (· = some ((F.rows : Int), (F.cols : Int), (F.entries.length : Int), textOf lines)) := by
      unfold readSizes
      refine (gives_ok hloop).bind ?_
      rintro _ rfl
      simp only [hsc]
      exact Run.gives_pure rfl
    refine hsizes.bind ?_
    rintro _ rfl
    refine Run.gives_pure ⟨rfl, hsplit, ?_, rfl, rfl, rfl, rfl, fun l hl => hn l (by simp; tauto), hent, b4⟩
    show text.length - (textOf lines).length = _
    rw [hsplit, List.length_append]
    omega

/-! ## Reading parts -/

section
variable {β : Type} {vals : List Char → Res β} {val : List Char → β} {text : List Char} {F : MMFile} {hd : List Char} {lines : List (List Char)} {f : File} {approx : Nat → Nat}

theorem Opened.len (h : Opened text F hd lines f) : lines.length = F.entries.length := h.entries.length_eq.symm

theorem Opened.position (h : Opened text F hd lines f) (ha : Approx f approx) {c : Nat} (hc : c ≤ F.entries.length) :
    ∃ k, k ≤ lines.length ∧ position f approx c = .ok (pos hd.length lines k) ∧ (c = 0 → k = 0) ∧ (c = F.entries.length → k = lines.length) := by
  unfold MmFile.position
  by_cases h0 : c = 0
  · rw [if_pos h0, h.first]
    exact ⟨0, Nat.zero_le _, by simp [pos, textOf, pure, Except.pure], fun _ => rfl, fun e => by rw [h.len]; omega⟩
  · rw [if_neg h0, h.nnz]
    by_cases h1 : (c : Int) = F.entries.length
    · rw [if_pos h1]
      exact ⟨lines.length, Nat.le_refl _, by rw [h.same, pos_end h.split]; rfl, fun e => absurd e h0, fun _ => rfl⟩
    · rw [if_neg h1]
      obtain ⟨r1, r2⟩ := ha.range c (by omega) (by rw [h.nnz]; omega)
      obtain ⟨r, e1, e2, e3, -⟩ := lineStart_spec r1 r2
      rw [h.same, h.first] at *
      obtain ⟨k, hk, rfl⟩ := bd_pos h.split h.newline e2 (by omega)
      exact ⟨k, hk, e1, fun e => absurd e h0, fun e => absurd (by omega) h1⟩

theorem Opened.mono (h : Opened text F hd lines f) (ha : Approx f approx) {a b : Nat} (hab : a ≤ b) (hb : b ≤ F.entries.length) {p q : Nat} (hp : MmFile.position f approx a = .ok p)
    (hq : MmFile.position f approx b = .ok q) : p ≤ q := by
  obtain ⟨k, hk, hk', k0, k1⟩ := h.position ha (c := a) (by omega)
  obtain ⟨j, hj, hj', j0, j1⟩ := h.position ha (c := b) hb
  have mono : ∀ {x y}, x ≤ y → y ≤ lines.length → pos hd.length lines x ≤ pos hd.length lines y := by
    intro x y hxy hy
    rcases Nat.lt_or_ge x y with hlt | hge
    · exact Nat.le_of_lt (pos_lt hlt hy)
    · have : x = y := by omega
      subst this
      exact Nat.le_refl _
  rw [hp] at hk'
  rw [hq] at hj'
  cases hk'
  cases hj'
  by_cases h0 : a = 0
  · rw [k0 h0]
    exact mono (Nat.zero_le _) hj
  · by_cases h1 : b = F.entries.length
    · rw [j1 h1]
      exact mono hk (Nat.le_refl _)
    · unfold MmFile.position at hp hq
      rw [if_neg h0, h.nnz, if_neg (by omega)] at hp
      rw [if_neg (by omega), h.nnz, if_neg (by omega)] at hq
      obtain ⟨r1, r2⟩ := ha.range a (by omega) (by rw [h.nnz]; omega)
      obtain ⟨s1, s2⟩ := ha.range b (by omega) (by rw [h.nnz]; omega)
      obtain ⟨r, e1, e2, e3, -⟩ := lineStart_spec r1 r2
      obtain ⟨s, g1, -, -, g4⟩ := lineStart_spec s1 s2
      rw [e1] at hp
      rw [g1] at hq
      cases hp
      cases hq
      have := ha.mono a b (by omega) hab (by rw [h.nnz]; omega)
      exact g4 _ e2 (by omega)

theorem Opened.visits (h : Opened text F hd lines f) (hv : Reads (F.field = kwPattern) vals val) {j k : Nat} (hjk : j ≤ k) (hk : k ≤ lines.length) :
    (iter vals text (pos hd.length lines k)).Visits (pos hd.length lines j) (.ok (((entriesOf val F).take k).drop j)) := by
  have hE : (entriesOf val F).length = lines.length := by rw [h.len]; simp [entriesOf]
  refine Iter.visits_of _ (fun s xs => ∃ j, j ≤ k ∧ s = pos hd.length lines j ∧ xs = ((entriesOf val F).take k).drop j) ?_ ?_ ⟨j, hjk, rfl, rfl⟩
  · rintro s ⟨j, hj, rfl, hx⟩
    have hx := congrArg List.length hx
    rw [List.length_nil, List.length_drop, List.length_take] at hx
    have : j = k := by omega
    subst this
    simp [iter, pure, Except.pure]
  · rintro s x xs ⟨j, hj, rfl, hx⟩
    have hlt : j < k := by
      have hx := congrArg List.length hx
      rw [List.length_cons, List.length_drop, List.length_take] at hx
      omega
    have hjl : j < lines.length := by omega
    have hje : j < F.entries.length := by rw [← h.len]; exact hjl
    rw [List.drop_eq_getElem_cons (by rw [List.length_take]; omega), List.cons.injEq] at hx
    refine ⟨?_, ?_, pos hd.length lines (j + 1), ?_, j + 1, hlt, rfl, hx.2⟩
    · have := pos_lt (first := hd.length) hlt hk
      simp only [iter, pure, Except.pure, Except.ok.injEq, decide_eq_false_iff_not]
      omega
    · obtain ⟨s1, s2⟩ := h.small _ (List.getElem_mem hje)
      have hl := h.entries.get hje hjl
      simp only [List.get_eq_getElem] at hl
      show deref vals text _ = _
      rw [deref_line hv hl s1 s2 (pre := []) (more := textOf (lines.drop (j + 1))) (by simp) (by rw [drop_pos h.split, List.drop_eq_getElem_cons hjl, textOf_cons]; rfl), hx.1]
      simp [entriesOf]
    · exact next_pos h.split h.newline hjl

theorem Opened.edges (h : Opened text F hd lines f) (ha : Approx f approx) (hv : Reads (F.field = kwPattern) vals val) {a b : Nat} (hab : a ≤ b) (hb : b ≤ F.entries.length) :
    ∃ j k, j ≤ k ∧ MmFile.position f approx a = .ok (pos hd.length lines j) ∧ MmFile.position f approx b = .ok (pos hd.length lines k) ∧ k ≤ lines.length ∧
      Run.Gives (MmFile.edges vals f approx (a, b)) (· = ((entriesOf val F).take k).drop j) := by
  obtain ⟨j, hj, pj, -⟩ := h.position ha (c := a) (by omega)
  obtain ⟨k, hk, pk, -⟩ := h.position ha (c := b) hb
  have hjk : j ≤ k := by
    have := h.mono ha hab hb pj pk
    by_contra hlt
    have := pos_lt (first := hd.length) (show k < j by omega) hj
    omega
  refine ⟨j, k, hjk, pj, pk, hk, ?_⟩
  unfold MmFile.edges
  refine (Run.gives_lift (Q := (· = pos hd.length lines j)) pj rfl).bind ?_
  rintro _ rfl
  refine (Run.gives_lift (Q := (· = pos hd.length lines k)) pk rfl).bind ?_
  rintro _ rfl
  have hvis := h.visits hv hjk hk
  rw [h.same]
  exact ⟨⟨_, hvis⟩, fun o ho => ⟨_, Iter.Visits.det ho hvis, rfl⟩⟩

end

/-- C103, opening: a well-formed file is opened without an error, and the sizes, the symmetry and the kind of values are those of the file. -/
theorem open_correct {text : List Char} {F : MMFile} (h : Lined text F) :
    Run.Gives (openFile text) fun f => f.rows = F.rows ∧ f.cols = F.cols ∧ f.nnz = F.entries.length ∧ (f.type.scheme = .symmetric ↔ F.symmetric = true) ∧ (f.type.field = .pattern ↔ F.field = kwPattern) := by
  obtain ⟨hd, lines, hg⟩ := open_gives h
  refine hg.mono fun f hf => ⟨hf.rows, hf.cols, hf.nnz, ?_, ?_⟩
  · rw [hf.type]
    unfold typeOf
    cases F.symmetric <;> simp
  · rw [hf.type]
    unfold typeOf
    obtain ⟨_, _, _, _, ⟨-, -, -, hfield, -, -, -, -, -, -, -⟩, -⟩ := h
    simp only
    rcases hfield with e | e | e | e <;> rw [e] <;> decide

/-- C103, reading: when a well-formed file is read in parts `edges(mm, c₀, c₁)`, `edges(mm, c₁, c₂)`, … with `0 = c₀ ≤ c₁ ≤ … ≤ cₖ = getNEdges()`, every part is read without a fault, and together the parts are
all entries of the file, in order, each once. -/
theorem parts_partial {β : Type} {vals : List Char → Res β} {val : List Char → β} {text : List Char} {F : MMFile} (h : Lined text F) (hv : Reads (F.field = kwPattern) vals val) :
    Run.Gives (openFile text) fun f => ∀ approx, Approx f approx → ∀ cuts : List Nat, cuts.head? = some 0 → cuts.getLast? = some F.entries.length → cuts.Pairwise (· ≤ ·) →
      (∀ ab ∈ cuts.zip cuts.tail, ∃ part, Run.Gives (edges vals f approx ab) (· = part)) ∧
      ∀ parts, List.Forall₂ (fun ab part => edges vals f approx ab (.ok part)) (cuts.zip cuts.tail) parts → parts.flatten = entriesOf val F := by
  obtain ⟨hd, lines, hg⟩ := open_gives h
  refine hg.mono fun f hf approx ha cuts hhead hlast hsort => ?_
  have hE : (entriesOf val F).length = lines.length := by rw [hf.len]; simp [entriesOf]
  have hle : ∀ c ∈ cuts, c ≤ F.entries.length := by
    intro c hc
    obtain ⟨i, hi, rfl⟩ := List.getElem_of_mem hc
    rw [List.getLast?_eq_getElem?, List.getElem?_eq_some_iff] at hlast
    obtain ⟨hl, hl'⟩ := hlast
    rw [← hl']
    rcases Nat.lt_or_ge i (cuts.length - 1) with hlt | hge
    · exact List.pairwise_iff_getElem.1 hsort i _ hi hl hlt
    · have : i = cuts.length - 1 := by omega
      subst this
      exact Nat.le_refl _
  have key : ∀ (cuts : List Nat) (c0 : Nat), (c0 :: cuts).Pairwise (· ≤ ·) → (∀ c ∈ c0 :: cuts, c ≤ F.entries.length) → (c0 :: cuts).getLast? = some F.entries.length →
      (∀ ab ∈ (c0 :: cuts).zip cuts, ∃ part, Run.Gives (edges vals f approx ab) (· = part)) ∧
      ∀ parts, List.Forall₂ (fun ab part => edges vals f approx ab (.ok part)) ((c0 :: cuts).zip cuts) parts → ∀ j, position f approx c0 = .ok (pos hd.length lines j) → j ≤ lines.length →
        parts.flatten = (entriesOf val F).drop j := by
    intro cuts
    induction cuts with
    | nil =>
      intro c0 _ _ hlast
      refine ⟨by simp, ?_⟩
      intro parts hp j hj hjl
      simp only [List.zip_nil_right, List.forall₂_nil_left_iff] at hp
      subst hp
      simp only [List.getLast?_singleton, Option.some.injEq] at hlast
      obtain ⟨k, hk, pk, -, k1⟩ := hf.position ha (c := c0) (by omega)
      rw [hj, k1 hlast] at pk
      have : j = lines.length := by
        rcases Nat.lt_or_ge j lines.length with hlt | hge
        · have h1 := pos_lt (first := hd.length) hlt (Nat.le_refl _)
          have h2 : pos hd.length lines j = pos hd.length lines lines.length := Except.ok.inj pk
          omega
        · omega
      rw [this, ← hE, List.drop_length]
      rfl
    | cons c1 cuts ih =>
      intro c0 hs hb hlast
      have h01 : c0 ≤ c1 := (List.pairwise_cons.1 hs).1 c1 (by simp)
      obtain ⟨j, k, hjk, pj, pk, hk, hgive⟩ := hf.edges ha hv h01 (hb c1 (by simp))
      obtain ⟨i1, i2⟩ := ih c1 (List.pairwise_cons.1 hs).2 (fun c hc => hb c (List.mem_cons_of_mem _ hc)) (by rw [← hlast, List.getLast?_cons_cons])
      refine ⟨?_, ?_⟩
      · intro ab hab
        rw [List.zip_cons_cons, List.mem_cons] at hab
        rcases hab with rfl | hab
        · exact ⟨_, hgive⟩
        · exact i1 ab hab
      · intro parts hp j' hj' hjl'
        rw [List.zip_cons_cons] at hp
        cases hp with
        | cons h1 h2 =>
          rename_i part parts
          obtain ⟨p, e, hpart⟩ := hgive.2 _ h1
          cases e
          have := i2 parts h2 k pk hk
          rw [List.flatten_cons, this, hpart]
          have hjj : j' = j := by
            rw [pj] at hj'
            have hj' := Except.ok.inj hj'
            rcases Nat.lt_trichotomy j' j with hlt | he | hgt
            · have := pos_lt (first := hd.length) hlt (Nat.le_trans hjk hk); omega
            · exact he
            · have := pos_lt (first := hd.length) hgt hjl'; omega
          rw [hjj]
          conv_rhs => rw [← List.take_append_drop k (entriesOf val F), List.drop_append_of_le_length (by rw [List.length_take]; omega)]
  cases cuts with
  | nil => simp at hhead
  | cons c0 cuts =>
    simp only [List.head?_cons, Option.some.injEq] at hhead
    subst hhead
    obtain ⟨k1, k2⟩ := key cuts 0 hsort hle hlast
    refine ⟨k1, fun parts hp => ?_⟩
    have := k2 parts hp 0 (by
      obtain ⟨k, -, pk, k0, -⟩ := hf.position ha (c := 0) (Nat.zero_le _)
      rw [pk, k0 rfl]) (Nat.zero_le _)
    simpa using this

/-- Without rounding the approximation has the required properties. -/
theorem approx_exact {f : File} (h1 : f.first < f.text.length) : Approx f fun a => a * (f.text.length - f.first) / f.nnz.toNat + f.first where
  mono a b _ hab _ := Nat.add_le_add_right (Nat.div_le_div_right (Nat.mul_le_mul_right _ hab)) _
  range a _ hlt := by
    refine ⟨Nat.le_add_left _ _, ?_⟩
    have h2 : a < f.nnz.toNat := by omega
    have : a * (f.text.length - f.first) / f.nnz.toNat < f.text.length - f.first := by
      rw [Nat.div_lt_iff_lt_mul (by omega), Nat.mul_comm]
      exact Nat.mul_lt_mul_of_pos_left h2 (by omega)
    omega

/-! ## A blank line in front of the sizes -/

theorem loop_acc {σ β : Type} {it : Iter σ β} {p : σ × List β} {o : Res (List β)} (h : Loop it.body p o) (pre : List β) : Loop it.body (p.1, pre ++ p.2) (o.map (pre ++ ·)) := by
  induction h with
  | @done p r hb =>
    obtain ⟨s, acc⟩ := p
    refine Loop.done ?_
    simp only [Iter.body] at hb ⊢
    cases h1 : it.atEnd s with
    | error e => rw [h1] at hb; cases hb
    | ok b =>
      rw [h1, res_bind_ok] at hb
      rw [res_bind_ok]
      cases b with
      | true => cases hb; rfl
      | false =>
        exfalso
        simp only [Bool.false_eq_true, ↓reduceIte] at hb
        cases h2 : it.deref s with
        | error e => rw [h2] at hb; cases hb
        | ok x =>
          rw [h2, res_bind_ok] at hb
          cases h3 : it.next s with
          | error e => rw [h3] at hb; cases hb
          | ok s' => rw [h3, res_bind_ok] at hb; cases hb
  | @fault p e hb =>
    obtain ⟨s, acc⟩ := p
    refine Loop.fault ?_
    simp only [Iter.body] at hb ⊢
    cases h1 : it.atEnd s with
    | error e => rw [h1] at hb; cases hb; rfl
    | ok b =>
      rw [h1, res_bind_ok] at hb
      rw [res_bind_ok]
      cases b with
      | true => cases hb
      | false =>
        simp only [Bool.false_eq_true, ↓reduceIte] at hb ⊢
        cases h2 : it.deref s with
        | error e => rw [h2] at hb; cases hb; rfl
        | ok x =>
          rw [h2, res_bind_ok] at hb
          rw [res_bind_ok]
          cases h3 : it.next s with
          | error e => rw [h3] at hb; cases hb; rfl
          | ok s' => rw [h3, res_bind_ok] at hb; cases hb
  | @step p p' o hb _ ih =>
    obtain ⟨s, acc⟩ := p
    refine Loop.step (s' := (p'.1, pre ++ p'.2)) ?_ ih
    simp only [Iter.body] at hb ⊢
    cases h1 : it.atEnd s with
    | error e => rw [h1] at hb; cases hb
    | ok b =>
      rw [h1, res_bind_ok] at hb
      rw [res_bind_ok]
      cases b with
      | true => cases hb
      | false =>
        simp only [Bool.false_eq_true, ↓reduceIte] at hb ⊢
        cases h2 : it.deref s with
        | error e => rw [h2] at hb; cases hb
        | ok x =>
          rw [h2, res_bind_ok] at hb
          rw [res_bind_ok]
          cases h3 : it.next s with
          | error e => rw [h3] at hb; cases hb
          | ok s' =>
            rw [h3, res_bind_ok] at hb
            rw [res_bind_ok]
            cases hb
            simp only [List.append_assoc]
            rfl

theorem visits_cons {σ β : Type} {it : Iter σ β} {s s' : σ} {x : β} {xs : List β} (h1 : it.atEnd s = .ok false) (h2 : it.deref s = .ok x) (h3 : it.next s = .ok s') (h4 : it.Visits s' (.ok xs)) :
    it.Visits s (.ok (x :: xs)) := by
  refine Loop.step (s' := (s', [x])) ?_ (loop_acc h4 [x])
  simp only [Iter.body, h1, h2, h3, res_bind_ok]
  rfl

section
variable {β : Type} {vals : List Char → Res β} {val : List Char → β}

theorem blank_comments {spaces : List Char} (h : ∀ c ∈ spaces, blank c = true) : spaces.head? ≠ some '%' := by
  cases spaces with
  | nil => simp
  | cons c l =>
    intro e
    simp only [List.head?_cons, Option.some.injEq] at e
    have := h c (by simp)
    rw [e] at this
    exact absurd this (by decide)

theorem scan3_blank {l : List Char} (h : ∀ c ∈ l, blank c = true) : scan3 l = .eof := by
  unfold scan3 scanInt
  rw [dropWhile_all (p := isSpace) h]

/-- C103 (disagreement): if there is a blank line in front of the sizes, the file is opened, but reading all of it gives the first entry twice. -/
theorem blank_line_duplicates {text : List Char} {F : MMFile} (h : BlankLined text F) (hv : Reads (F.field = kwPattern) vals val) :
    Run.Gives (openFile text) fun f => f.nnz = F.entries.length ∧
      ∀ approx x rest, entriesOf val F = x :: rest → Run.Gives (edges vals f approx (0, F.entries.length)) (· = x :: x :: rest) := by
  obtain ⟨header, comments, spaces, size, lines, ⟨hn, hlen, hw, hf, hc, ⟨n, m, k, hwords, h1, h2, h3⟩, hent, b1, b2, b3, b4⟩, hsp, hspn, hspl, ht⟩ := h
  have ht' : text = header ++ '\n' :: (textOf comments ++ (spaces ++ '\n' :: (size ++ '\n' :: textOf lines))) := by
    rw [ht, List.cons_append, textOf_cons, textOf_append, textOf_cons, textOf_cons]
  obtain ⟨tail, hsc, htail, pre, hpre⟩ := scan3_line (more := textOf lines) hwords h1 h2 h3 b1 b2 b3
  unfold openFile
  refine (Run.gives_lift (a := some (typeOf F, textOf comments ++ (spaces ++ '\n' :: (size ++ '\n' :: textOf lines))))
    (Q := (· = some (typeOf F, textOf comments ++ (spaces ++ '\n' :: (size ++ '\n' :: textOf lines))))) ?_ rfl).bind ?_
  · rw [ht']
    exact banner_ok (hn _ (by simp)) (hlen _ (by simp)) hw hf
  rintro _ rfl
  simp only
  rw [if_neg (by simp [typeOf])]
  have hloop := comments_loop (size := spaces) (rest := size ++ '\n' :: textOf lines) (comments := comments)
    (fun l hl => by
      rw [List.mem_append, List.mem_singleton] at hl
      rcases hl with hl | rfl
      · exact hn l (by simp; tauto)
      · exact hspn) (fun l hl => by
      rw [List.mem_append, List.mem_singleton] at hl
      rcases hl with hl | rfl
      · exact hlen l (by simp; tauto)
      · exact hspl) hc (blank_comments hsp)
  have hsizes : Run.Gives (readSizes (textOf comments ++ (spaces ++ '\n' :: (size ++ '\n' :: textOf lines)))) (· = some ((F.rows : Int), (F.cols : Int), (F.entries.length : Int), tail ++ '\n' :: textOf lines)) := by
    unfold readSizes
    refine (gives_ok hloop).bind ?_
    rintro _ rfl
    simp only
    rw [scan3_blank (by
      intro c hc'
      rcases List.mem_append.1 hc' with h | h
      · exact hsp c h
      · rw [List.mem_singleton] at h; subst h; decide)]
    refine gives_ok (Loop.done ?_)
    unfold sizeBody
    rw [hsc]
    rfl
  refine hsizes.bind ?_
  rintro _ rfl
  refine Run.gives_pure ⟨rfl, ?_⟩
  intro approx x rest hx
  have hsplit : text = textOf (header :: comments ++ spaces :: [size]) ++ textOf lines := by rw [ht, ← textOf_append]; simp
  have hle : textOf (header :: comments ++ spaces :: [size]) = header ++ '\n' :: (textOf comments ++ (spaces ++ '\n' :: pre)) ++ (tail ++ ['\n']) := by
    rw [List.cons_append, textOf_cons, textOf_append, textOf_cons, textOf_cons, hpre]
    simp [textOf, List.append_assoc]
  have hfirst : text.length - (tail ++ '\n' :: textOf lines).length = (header ++ '\n' :: (textOf comments ++ (spaces ++ '\n' :: pre))).length := by
    rw [hsplit, hle]
    simp only [List.length_append, List.length_cons, List.length_nil]
    omega
  have hdrop : text.drop (text.length - (tail ++ '\n' :: textOf lines).length) = tail ++ '\n' :: textOf lines := by
    rw [hfirst, hsplit, hle, List.append_assoc, List.drop_left' rfl]
    simp [List.append_assoc]
  have hpos : text.length - (tail ++ '\n' :: textOf lines).length + tail.length + 1 = (textOf (header :: comments ++ spaces :: [size])).length := by
    rw [hfirst, hle]
    simp only [List.length_append, List.length_cons, List.length_nil]
    omega
  have ho : Opened text F (textOf (header :: comments ++ spaces :: [size])) lines
      { text := text, rows := F.rows, cols := F.cols, nnz := F.entries.length, first := (textOf (header :: comments ++ spaces :: [size])).length, type := typeOf F } :=
    ⟨rfl, hsplit, rfl, rfl, rfl, rfl, rfl, fun l hl => hn l (by simp; tauto), hent, b4⟩
  have hvis := ho.visits hv (Nat.zero_le _) (Nat.le_refl _)
  rw [pos_end hsplit] at hvis
  have htake : ((entriesOf val F).take lines.length).drop 0 = x :: rest := by
    rw [ho.len, List.drop_zero, ← hx, List.take_of_length_le (by simp [entriesOf])]
  rw [htake] at hvis
  have hp0 : pos (textOf (header :: comments ++ spaces :: [size])).length lines 0 = (textOf (header :: comments ++ spaces :: [size])).length := by simp [pos, textOf]
  rw [hp0] at hvis
  have hne : F.entries.length ≠ 0 := by
    intro e
    have := congrArg List.length hx
    simp [entriesOf, e] at this
  obtain ⟨e0, es, hes⟩ : ∃ e0 es, F.entries = e0 :: es := by
    cases hE : F.entries with
    | nil => rw [hE] at hne; simp at hne
    | cons e0 es => exact ⟨e0, es, rfl⟩
  obtain ⟨l0, ls, hls, hl0⟩ : ∃ l0 ls, lines = l0 :: ls ∧ EntryLine (F.field = kwPattern) e0 l0 := by
    rw [hes] at hent
    cases hent with
    | cons a b => exact ⟨_, _, rfl, a⟩
  unfold edges
  refine (Run.gives_lift (Q := (· = text.length - (tail ++ '\n' :: textOf lines).length)) (by unfold position; rw [if_pos rfl]; rfl) rfl).bind ?_
  rintro _ rfl
  refine (Run.gives_lift (Q := (· = text.length)) (by unfold position; rw [if_neg hne, if_pos rfl]; rfl) rfl).bind ?_
  rintro _ rfl
  have hfin : (iter vals text text.length).Visits (text.length - (tail ++ '\n' :: textOf lines).length) (.ok (x :: x :: rest)) := by
    refine visits_cons ?_ ?_ ?_ hvis
    · have : 0 < (tail ++ '\n' :: textOf lines).length := by rw [List.length_append, List.length_cons]; omega
      have : (tail ++ '\n' :: textOf lines).length ≤ text.length := by
        rw [hsplit, hle]
        simp only [List.length_append, List.length_cons, List.length_nil]
        omega
      simp only [iter, pure, Except.pure, Except.ok.injEq, decide_eq_false_iff_not]
      omega
    · obtain ⟨s1, s2⟩ := b4 e0 (by rw [hes]; simp)
      show deref vals text _ = _
      rw [deref_line hv hl0 s1 s2 (pre := tail ++ ['\n']) (more := textOf ls) (by
        intro c hc'
        rcases List.mem_append.1 hc' with h | h
        · exact htail c h
        · rw [List.mem_singleton] at h; subst h; decide) (by rw [hdrop, hls, textOf_cons]; simp)]
      simp only [entriesOf, hes, List.map_cons, List.cons.injEq] at hx
      rw [hx.1]
    · show next text _ = _
      unfold next
      have htn : '\n' ∉ tail := fun hm => hn size (by simp) (by rw [hpre]; exact List.mem_append_right _ hm)
      have hwl := takeWhile_word (p := fun c : Char => decide (c ≠ '\n')) (t := tail) (rest := '\n' :: textOf lines)
        (by intro c hc'; simp only [decide_eq_true_eq]; exact fun e => htn (e ▸ hc')) (.inr ⟨_, _, rfl, by simp⟩)
      rw [hdrop]
      simp only [hwl.1]
      rw [if_pos (by simp), hpos]
  exact ⟨⟨_, hfin⟩, fun o ho' => ⟨_, Iter.Visits.det ho' hfin, rfl⟩⟩

/-- A computation that runs forever after a first part. -/
theorem never_bind {α γ : Type} {m : Run α} {a : α} {k : α → Run γ} (h : Run.Gives m (· = a)) (hk : ∀ o, ¬ k a o) (o : Res γ) : ¬ (m >>= k) o := by
  rintro (⟨b, hb, ho⟩ | ⟨f, hf, -⟩)
  · obtain ⟨_, e, rfl⟩ := h.2 _ hb
    cases e
    exact hk o ho
  · obtain ⟨_, e, -⟩ := h.2 _ hf
    cases e

theorem sizes_never {rest : List Char} (o) : ¬ Loop sizeBody ('%' :: rest) o := by
  have hb : sizeBody ('%' :: rest) = .ok (.inl ('%' :: rest)) := by
    unfold sizeBody scan3 scanInt
    rw [List.dropWhile_cons_of_neg (by decide)]
    have h1 : takeSign ('%' :: rest) = (false, '%' :: rest) := rfl
    have h2 : ('%' :: rest).takeWhile isDigit = [] := List.takeWhile_cons_of_neg (by decide)
    simp only [h1, h2]
    rfl
  intro h
  generalize hs : '%' :: rest = s at h
  induction h with
  | done h => subst hs; rw [hb] at h; cases h
  | fault h => subst hs; rw [hb] at h; cases h
  | step h _ ih => subst hs; rw [hb] at h; cases h; exact ih rfl

/-- C103 (disagreement): if a line that is neither a comment nor has the sizes (for example a blank line) is followed by a comment, opening the file never ends. -/
theorem comment_after_blank_never_ends {F : MMFile} {header : List Char} {comments : List (List Char)} {size : List Char} {lines : List (List Char)} (h : Parts F header comments size lines)
    {spaces : List Char} (hsp : ∀ c ∈ spaces, blank c = true) (hspn : '\n' ∉ spaces) (hspl : spaces.length ≤ 1023) (rest : List Char) (o) :
    ¬ openFile (textOf (header :: comments ++ [spaces]) ++ '%' :: rest) o := by
  have ht' : textOf (header :: comments ++ [spaces]) ++ '%' :: rest = header ++ '\n' :: (textOf comments ++ (spaces ++ '\n' :: '%' :: rest)) := by
    rw [List.cons_append, textOf_cons, textOf_append]
    simp [textOf]
  rw [ht']
  obtain ⟨hn, hlen, hw, hf, hc, -, -, -, -, -, -⟩ := h
  unfold openFile
  refine never_bind (a := some (typeOf F, textOf comments ++ (spaces ++ '\n' :: '%' :: rest))) (Run.gives_lift (banner_ok (hn _ (by simp)) (hlen _ (by simp)) hw hf) rfl) ?_ o
  intro o
  simp only
  rw [if_neg (by simp [typeOf])]
  have hloop := comments_loop (size := spaces) (rest := '%' :: rest) (comments := comments)
    (fun l hl => by
      rw [List.mem_append, List.mem_singleton] at hl
      rcases hl with hl | rfl
      · exact hn l (by simp; tauto)
      · exact hspn) (fun l hl => by
      rw [List.mem_append, List.mem_singleton] at hl
      rcases hl with hl | rfl
      · exact hlen l (by simp; tauto)
      · exact hspl) hc (blank_comments hsp)
  have hs : ∀ o, ¬ readSizes (textOf comments ++ (spaces ++ '\n' :: '%' :: rest)) o := by
    unfold readSizes
    refine never_bind (gives_ok hloop) ?_
    intro o
    simp only
    rw [scan3_blank (by
      intro c hc'
      rcases List.mem_append.1 hc' with h | h
      · exact hsp c h
      · rw [List.mem_singleton] at h; subst h; decide)]
    exact sizes_never o
  rintro (⟨a, ha, -⟩ | ⟨f, hf', -⟩)
  · exact hs _ ha
  · exact hs _ hf'

/-- C103 (disagreement): going on from a last line `l` that has no newline at its end (or from the end of the text) is a fault. -/
theorem missing_newline {front l : List Char} (hl : '\n' ∉ l) (i : Nat) : next (front ++ l) (front.length + i) = .error .outOfBounds := by
  unfold next
  rw [← List.drop_drop, List.drop_left' rfl]
  have : (l.drop i).takeWhile (fun c => decide (c ≠ '\n')) = l.drop i := by
    have := (takeWhile_word (p := fun c : Char => decide (c ≠ '\n')) (t := l.drop i) (rest := [])
      (by intro c hc; simp only [decide_eq_true_eq]; exact fun e => hl (e ▸ List.mem_of_mem_drop hc)) (.inl rfl)).1
    rwa [List.append_nil] at this
  simp only [this]
  rw [if_neg (Nat.lt_irrefl _)]

end

/-! ## Concrete cases -/

/-- A file with three entries, and one without any lines of entries. -/
def exContent : MMFile := ⟨"integer".toList, true, 3, 3, [(2, 1, "40".toList), (3, 3, "7".toList), (3, 1, "5".toList)]⟩

theorem exParts : Parts exContent "%%MatrixMarket MATRIX coordinate Integer symmetric".toList ["% c".toList] "3 3 3".toList ["2 1 40".toList, " 3\t3 7".toList, "3 1 5 ".toList] where
  newline := by decide +kernel
  short := by decide +kernel
  banner := ⟨"MATRIX".toList, "coordinate".toList, "Integer".toList, "symmetric".toList, by decide +kernel, by decide +kernel, by decide +kernel, by decide +kernel, by decide +kernel⟩
  field := .inr (.inl rfl)
  comment := by decide +kernel
  sizes := ⟨['3'], ['3'], ['3'], by decide +kernel, ⟨by decide +kernel, by decide +kernel, by decide +kernel⟩, ⟨by decide +kernel, by decide +kernel, by decide +kernel⟩,
    ⟨by decide +kernel, by decide +kernel, by decide +kernel⟩⟩
  entries := .cons ⟨['2'], ['1'], ⟨by decide +kernel, by decide +kernel, by decide +kernel⟩, ⟨by decide +kernel, by decide +kernel, by decide +kernel⟩, .inr ⟨by decide +kernel, by decide +kernel⟩⟩
    (.cons ⟨['3'], ['3'], ⟨by decide +kernel, by decide +kernel, by decide +kernel⟩, ⟨by decide +kernel, by decide +kernel, by decide +kernel⟩, .inr ⟨by decide +kernel, by decide +kernel⟩⟩
    (.cons ⟨['3'], ['1'], ⟨by decide +kernel, by decide +kernel, by decide +kernel⟩, ⟨by decide +kernel, by decide +kernel, by decide +kernel⟩, .inr ⟨by decide +kernel, by decide +kernel⟩⟩ .nil))
  rows := by decide
  cols := by decide
  count := by decide
  small := by decide +kernel

example : Lined "%%MatrixMarket MATRIX coordinate Integer symmetric\n% c\n3 3 3\n2 1 40\n 3\t3 7\n3 1 5 \n".toList exContent := ⟨_, _, _, _, exParts, by decide +kernel⟩

example : BlankLined "%%MatrixMarket MATRIX coordinate Integer symmetric\n% c\n \n3 3 3\n2 1 40\n 3\t3 7\n3 1 5 \n".toList exContent :=
  ⟨_, _, [' '], _, _, exParts, by decide +kernel, by decide +kernel, by decide +kernel, by decide +kernel⟩

/-- A reader of the word behind the coordinates, and one that reads nothing. -/
example : Reads (exContent.field = kwPattern) (fun cs => .ok ((cs.dropWhile blank).takeWhile (fun c => !blank c))) id := by
  refine .inr ⟨by decide +kernel, fun pre w d rest h1 h2 h3 h4 => ?_⟩
  have h5 : (pre ++ (w ++ d :: rest)).dropWhile blank = w ++ d :: rest := by
    cases w with
    | nil => exact absurd rfl h2
    | cons c w =>
      rw [List.dropWhile_append_of_pos h1]
      exact List.dropWhile_cons_of_neg (by rw [h3 c (by simp)]; decide)
  simp only
  rw [h5, (takeWhile_word (p := fun c => !blank c) (fun c hc => by rw [h3 c hc]; rfl) (.inr ⟨_, _, rfl, by rw [h4]; rfl⟩)).1]
  rfl
example (p : Prop) : Reads p (fun _ => .ok ()) fun _ => () := .inl ⟨(), fun _ => rfl, fun _ => rfl⟩

example : entriesOf id exContent = [(1, 0, "40".toList), (2, 2, "7".toList), (2, 0, "5".toList)] := by decide +kernel

/-- Cuts of the three entries into parts, one of them empty. -/
example : ([0, 1, 1, 3] : List Nat).head? = some 0 ∧ ([0, 1, 1, 3] : List Nat).getLast? = some exContent.entries.length ∧ ([0, 1, 1, 3] : List Nat).Pairwise (· ≤ ·) := by decide +kernel

end NW.MmFile
