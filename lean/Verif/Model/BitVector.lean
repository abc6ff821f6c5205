import Verif.Iter

/-!
# Model of `AtomicBitVector<Word>` (util/AtomicBitVector.hpp)

A word is a natural number below `2 ^ B`, where `B` is `BITS`, the number of bits of `Word`.  Every `get` is one atomic load and every
`set` one atomic `fetch_or` on one word, so an execution with any number of threads is a sequence of these operations.
Allocation without initialisation is not modelled.
-/

namespace NW.BitVec'

/-- `words(n)`: AtomicBitVector.hpp:252. -/
def words (B n : Nat) : Nat := n / B + (if n % B ≠ 0 then 1 else 0)

/-- `AtomicBitVector(bits)`: AtomicBitVector.hpp:60-62, 78; the vector is its words. -/
def new (B bits : Nat) : List Nat := List.replicate (words B bits) 0

/-- `split(i)`: AtomicBitVector.hpp:245-250. -/
def split (B i : Nat) : Nat × Nat := (i / B, (1 <<< (i % B)) % 2 ^ B)

/-- `get(i)` / `atomic_get(i)`: AtomicBitVector.hpp:97-101, 135. -/
def get (B : Nat) (v : List Nat) (i : Nat) : Res Nat := do
  let w ← vget v (split B i).1
  return w &&& (split B i).2

/-- `set(i)` / `atomic_set(i)`: AtomicBitVector.hpp:121-125, 146.  Returns the masked previous word and the new vector. -/
def set (B : Nat) (v : List Nat) (i : Nat) : Res (Nat × List Nat) := do
  let w ← vget v (split B i).1
  let v' ← vset v (split B i).1 (w ||| (split B i).2)
  return (w &&& (split B i).2, v')

/-- One operation of some thread. -/
inductive Op where
  | get (i : Nat)
  | set (i : Nat)
  deriving DecidableEq

/-- Executing operations in the order in which they take effect; the returned words. -/
def run (B : Nat) : List Nat → List Op → Res (List Nat × List Nat)
  | v, [] => .ok ([], v)
  | v, .get i :: ops => do
    let r ← get B v i
    let (rs, v') ← run B v ops
    return (r :: rs, v')
  | v, .set i :: ops => do
    let (r, v1) ← set B v i
    let (rs, v') ← run B v1 ops
    return (r :: rs, v')

/-- `__builtin_ctzl(w)` on a nonzero word. -/
def ctz (w : Nat) : Nat := if h : w = 0 then 0 else if w % 2 = 1 then 0 else ctz (w / 2) + 1
termination_by w
decreasing_by omega

/-- `non_zero_iterator`: AtomicBitVector.hpp:148-152. -/
structure Pos where
  word : Nat
  bit : Nat
  deriving DecidableEq, Repr

/-- `search_next()`: AtomicBitVector.hpp:195-208; `data_[0 .. n_)` is `v`. -/
def searchNext (v : List Nat) (word : Nat) : Pos :=
  if h : word < v.length then
    if v[word] ≠ 0 then ⟨word, ctz v[word]⟩ else searchNext v (word + 1)
  else ⟨v.length, 0⟩
termination_by v.length - word

/-- `operator++`: AtomicBitVector.hpp:169-182. -/
def next (B : Nat) (v : List Nat) (p : Pos) : Res Pos :=
  if p.word < v.length ∧ p.bit + 1 < B then do
    let w ← vget v p.word
    if w >>> (p.bit + 1) ≠ 0 then return ⟨p.word, p.bit + 1 + ctz (w >>> (p.bit + 1))⟩
    else return searchNext v (p.word + 1)
  else return searchNext v (p.word + 1)

/-- `begin()` and `end()` of a `non_zero_range` over words `[b, e)`: AtomicBitVector.hpp:217-240; `v.begin()` and `v.end()`,
211-212, are those of the range over all words. -/
def rangeIter (B : Nat) (v : List Nat) (e : Nat) : Iter Pos Nat where
  atEnd p := .ok (decide (p = searchNext v e))
  deref p := .ok (p.word * B + p.bit)
  next := next B v

/-- `begin()` of a `non_zero_range` starting at word `b`. -/
def rangeBegin (v : List Nat) (b : Nat) : Pos := searchNext v b

end NW.BitVec'
