import Mathlib.Data.List.Basic

/-!
# What a coordinate Matrix Market text says
-/

namespace NW.Spec

/-- White space. -/
def blank (c : Char) : Bool := c = ' ' || c = '\t' || c = '\n' || c = '\x0b' || c = '\x0c' || c = '\r'

/-- Extending the first word by a character in front. -/
def extend (c : Char) : List (List Char) → List (List Char)
  | [] => [[c]]
  | t :: ts => (c :: t) :: ts

/-- The words of a text: its maximal pieces without white space. -/
def words : List Char → List (List Char)
  | [] => []
  | c :: cs =>
    if blank c then words cs
    else if cs.head?.all blank then [c] :: words cs
    else extend c (words cs)

/-- `t` is a decimal numeral for `n`. -/
def Numeral (t : List Char) (n : Nat) : Prop :=
  t ≠ [] ∧ (∀ c ∈ t, '0' ≤ c ∧ c ≤ '9') ∧ t.foldl (fun a c => 10 * a + (c.toNat - '0'.toNat)) 0 = n

/-- The text begins with these lines, each ended by a newline; only the last one may be ended by the end of the text, if it is not empty. -/
inductive HasLines : List (List Char) → List Char → Prop
  | nil (cs : List Char) : HasLines [] cs
  | last {l : List Char} (h : l ≠ []) (hl : '\n' ∉ l) : HasLines [l] l
  | cons {l : List Char} {ls : List (List Char)} {cs : List Char} (hl : '\n' ∉ l) (h : HasLines ls cs) : HasLines (l :: ls) (l ++ '\n' :: cs)

/-- The content of a coordinate file: its field type (`pattern` has no values), symmetry, declared dimensions, and the entries with one-based coordinates and
the text of their value. -/
structure MMFile where
  field : List Char
  symmetric : Bool
  rows : Nat
  cols : Nat
  entries : List (Nat × Nat × List Char)

/-- An entry on a line of its own: two numerals and, unless the field is `pattern`, a value. -/
def EntryLine (pattern : Prop) (e : Nat × Nat × List Char) (l : List Char) : Prop :=
  ∃ r c, Numeral r e.1 ∧ Numeral c e.2.1 ∧ ((pattern ∧ words l = [r, c]) ∨ (¬ pattern ∧ words l = [r, c, e.2.2]))

/-- The words of the header. -/
def kwBanner : List Char := "%%MatrixMarket".toList
def kwSymmetric : List Char := "symmetric".toList
def kwGeneral : List Char := "general".toList
def kwPattern : List Char := "pattern".toList

/-- `text` is a coordinate file with content `F`: a header, any number of comment lines, the sizes, and one line per entry. -/
def Describes (text : List Char) (F : MMFile) : Prop :=
  ∃ (header : List Char) (comments : List (List Char)) (size : List Char) (lines : List (List Char)),
    HasLines (header :: comments ++ size :: lines) text ∧
    (∃ a b, words header = [kwBanner, a, b, F.field, if F.symmetric then kwSymmetric else kwGeneral]) ∧
    (∀ l ∈ comments, l.head? = some '%') ∧
    (∃ n m k, words size = [n, m, k] ∧ Numeral n F.rows ∧ Numeral m F.cols ∧ Numeral k F.entries.length) ∧
    List.Forall₂ (EntryLine (F.field = kwPattern)) F.entries lines

/-- `text` is an array file of one column with the integer values `vals`: a header, any number of comment lines, the sizes, and the values as words. -/
def DescribesVector (text : List Char) (vals : List Nat) : Prop :=
  ∃ (header : List Char) (comments : List (List Char)) (size : List Char) (lines : List (List Char)),
    HasLines (header :: comments ++ size :: lines) text ∧
    (∃ a b c s, words header = [kwBanner, a, b, c, s] ∧ (s = kwSymmetric ∨ s = kwGeneral)) ∧
    (∀ l ∈ comments, l.head? = some '%') ∧
    (∃ n m, words size = [n, m] ∧ Numeral n vals.length ∧ Numeral m 1) ∧
    List.Forall₂ Numeral (lines.flatMap words) vals

/-- All numbers fit in 64 bits, coordinates are at least 1 and fit the vertex type of `w ≤ 64` bits (all of its values but the last). -/
structure Fits (w : Nat) (F : MMFile) : Prop where
  width : w ≤ 64
  rows : F.rows < 2 ^ w
  cols : F.cols < 2 ^ 64
  count : F.entries.length < 2 ^ 64
  entries : ∀ e ∈ F.entries, 1 ≤ e.1 ∧ e.1 < 2 ^ w ∧ 1 ≤ e.2.1 ∧ e.2.1 < 2 ^ w

end NW.Spec
