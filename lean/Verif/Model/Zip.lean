import Verif.Base

/-!
# Model of `struct_of_arrays` and `zipped` as ranges: containers/soa.hpp, containers/zip.hpp, util/tuple_hack.hpp

Both classes hold `k` columns (`zipped`: references to them), with a type for each column; their iterators are an index and a pointer to the object, and dereferencing one gives a tuple of references.
A nested zip (`make_zipped(tmp, cs.to_be_indexed_)`) is the zip of all the columns.
-/

namespace NW.Zip

variable {k : Nat} {τ : Fin k → Type}

/-- The columns: soa.hpp:61, zip.hpp:55. -/
abbrev Cols (τ : Fin k → Type) := (i : Fin k) → List (τ i)

/-- The value type of the iterators: soa.hpp:74, zip.hpp:76. -/
abbrev Tup (τ : Fin k → Type) := (i : Fin k) → τ i

/-- `size()` is the length of the first column: soa.hpp:332-334, zip.hpp:295-297. -/
def size {k : Nat} {τ : Fin (k + 1) → Type} (c : Cols τ) : Nat := (c 0).length

/-- The value of `*(begin() + j)`, `begin()[j]` and `operator[](j)`: every column is accessed: soa.hpp:143-151, 211-217; zip.hpp:146-154, 205-211. -/
def read (c : Cols τ) (j : Nat) : Res (Tup τ) :=
  if h : ∀ i, j < (c i).length then .ok fun i => (c i)[j]'(h i) else .error .outOfBounds

/-- `*(begin() + j) = x`: assignment to a tuple of references assigns to every column. -/
def write (c : Cols τ) (j : Nat) (x : Tup τ) : Res (Cols τ) :=
  if ∀ i, j < (c i).length then .ok fun i => (c i).set j (x i) else .error .outOfBounds

/-- `swap(*(begin() + a), *(begin() + b))`: tuple_hack.hpp:38-46; the columns are swapped one after another. -/
def swap (c : Cols τ) (a b : Nat) : Res (Cols τ) :=
  if h : (∀ i, a < (c i).length) ∧ ∀ i, b < (c i).length then .ok fun i => ((c i).set a ((c i)[b]'(h.2 i))).set b ((c i)[a]'(h.1 i))
  else .error .outOfBounds

/-- A program that works on a range through its iterators: it reads elements (and goes on in a way that depends on them), assigns elements, swaps elements, and ends with a result.
`*a = *b` is a read followed by an assignment. -/
inductive Prog (T ρ : Type) where
  | ret (r : ρ)
  | read (j : Nat) (next : T → Prog T ρ)
  | write (j : Nat) (x : T) (next : Prog T ρ)
  | swap (a b : Nat) (next : Prog T ρ)

/-- The program on the columns. -/
def Prog.onCols {ρ : Type} : Prog (Tup τ) ρ → Cols τ → Res (ρ × Cols τ)
  | .ret r, c => .ok (r, c)
  | .read j next, c => match Zip.read c j with
    | .ok x => (next x).onCols c
    | .error f => .error f
  | .write j x next, c => match Zip.write c j x with
    | .ok c' => next.onCols c'
    | .error f => .error f
  | .swap a b next, c => match Zip.swap c a b with
    | .ok c' => next.onCols c'
    | .error f => .error f

end NW.Zip
