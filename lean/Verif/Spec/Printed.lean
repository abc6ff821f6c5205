import Verif.Spec.MatrixMarket

/-!
# What a printed text says
-/

namespace NW.Spec
variable {β : Type}

/-- The text consists of one line for each of `xs`, in this order; the line of `x` satisfies `P x`. -/
def Printed (P : β → List Char → Prop) (xs : List β) (text : List Char) : Prop :=
  ∃ lines : List (List Char), text = lines.flatMap (· ++ ['\n']) ∧ (∀ l ∈ lines, '\n' ∉ l) ∧ List.Forall₂ P xs lines

/-- A word: something printable without white space. -/
def IsWord (t : List Char) : Prop := t ≠ [] ∧ ∀ c ∈ t, blank c = false

/-- The line says: this source, this target, and these words. -/
def EdgeWords (e : Nat × Nat × List (List Char)) (l : List Char) : Prop :=
  ∃ r c, Numeral r e.1 ∧ Numeral c e.2.1 ∧ words l = r :: c :: e.2.2

/-- The line says `( source, target )`. -/
def PairWords (e : Nat × Nat) (l : List Char) : Prop :=
  ∃ r c, Numeral r e.1 ∧ Numeral c e.2 ∧ words l = [['('], r ++ [','], c, [')']]

/-- The line says `==> vertex:` and the neighbours. -/
def RowWords (e : Nat × List Nat) (l : List Char) : Prop :=
  ∃ r ts, Numeral r e.1 ∧ List.Forall₂ Numeral ts e.2 ∧ words l = ['=', '=', '>'] :: (r ++ [':']) :: ts

/-- The pairs of an adjacency, given by the neighbours of each vertex: those of vertex 0 come first. -/
def pairsOf {α : Type} (rows : List (List (Nat × α))) : List (Nat × Nat) := rows.zipIdx.flatMap fun r => r.1.map fun e => (r.2, e.1)

/-- The neighbours of each vertex. -/
def neighboursOf {α : Type} (rows : List (List (Nat × α))) : List (Nat × List Nat) := rows.zipIdx.map fun r => (r.2, r.1.map (·.1))

/-- The line says `( field, field, ... )`. -/
def TupleWords (ts : List (List Char)) (l : List Char) : Prop :=
  words l = ['('] :: (ts.dropLast.map (· ++ [','])) ++ ts.getLast?.toList ++ [[')']]

/-- `u` is `t` without white space around it. -/
def Trimmed (t u : List Char) : Prop :=
  (∃ a b, t = a ++ u ++ b ∧ (∀ c ∈ a, blank c = true) ∧ ∀ c ∈ b, blank c = true) ∧
  (∀ c, u.head? = some c → blank c = false) ∧ ∀ c, u.getLast? = some c → blank c = false

end NW.Spec
