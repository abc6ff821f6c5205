import Verif.Spec.RandomAccess
import Verif.Model.Csr
import Verif.Model.Zip

/-!
# Model of the iterators of `struct_of_arrays`, `zipped` and `indexed_struct_of_arrays`

soa.hpp:65-159, zip.hpp:65-162, compressed.hpp:91-187.  An iterator is an index, an unsigned integer of `w` bits, and the object it belongs to.  Differences are signed integers of as many bits; the theorems
consider those that are in range.  `it++` and `it--` are left out: for the first two classes the arguments of the constructor are exchanged, for the third the functions are `const`; none of them compiles.
-/

namespace NW.Iterators
open Spec

/-- An iterator: `i_` and `soa_`, soa.hpp:71-72, zip.hpp:71-72; `i_` and the object that `indices_` and `indexed_` belong to, compressed.hpp:104-106. -/
structure It (w : Nat) where
  i : BitVec w
  obj : Nat
  deriving DecidableEq

variable {w : Nat}

/-- `++it`: soa.hpp:107-110, zip.hpp:111-114, compressed.hpp:133-136. -/
def incr (p : It w) : It w := { p with i := p.i + 1 }

/-- `--it`: soa.hpp:111-114, zip.hpp:115-118, compressed.hpp:145-148. -/
def decr (p : It w) : It w := { p with i := p.i - 1 }

/-- `it + n`, `it += n`: soa.hpp:115-118, 124-126; zip.hpp:119-122, 128-130; compressed.hpp:156-159, 166. -/
def add (p : It w) (n : Int) : It w := { p with i := p.i + BitVec.ofInt w n }

/-- `it - n`, `it -= n`: soa.hpp:119-122, 127-129; zip.hpp:123-126, 131-133; compressed.hpp:161-164, 168. -/
def sub (p : It w) (n : Int) : It w := { p with i := p.i - BitVec.ofInt w n }

/-- `it - b`: the unsigned difference, converted to the signed type: soa.hpp:131-133, zip.hpp:142-144, compressed.hpp:170. -/
def diff (p b : It w) : Int := (p.i - b.i).toInt

/-- `==` by default: both members: soa.hpp:97, zip.hpp:101. -/
def eqSoa (p b : It w) : Bool := p.i == b.i && p.obj == b.obj

/-- `<` from the default `<=>`: the members one after another: soa.hpp:98, zip.hpp:102. -/
def ltSoa (p b : It w) : Bool := decide (p.i.toNat < b.i.toNat) || (p.i == b.i && decide (p.obj < b.obj))

/-- Reading an element of all the columns: soa.hpp:143-151, zip.hpp:146-154. -/
def readSoa {k : Nat} {τ : Fin k → Type} (c : Zip.Cols τ) (i : BitVec w) : Res (Zip.Tup τ) := Zip.read c i.toNat

/-- The iterators of `struct_of_arrays` and of `zipped`: soa.hpp:65-159, zip.hpp:65-162. -/
def soaOps {k : Nat} {τ : Fin k → Type} (c : Zip.Cols τ) : IterOps (It w) (Zip.Tup τ) where
  incr := incr
  decr := decr
  add := add
  sub := sub
  diff := diff
  eq := eqSoa
  lt := ltSoa
  gt p b := ltSoa b p
  le p b := ltSoa p b || eqSoa p b
  ge p b := ltSoa b p || eqSoa p b
  deref p := readSoa c p.i
  at_ p n := readSoa c (p.i + BitVec.ofInt w n)

/-- `begin()`: soa.hpp:191-193, zip.hpp:190-192. -/
def beginSoa (obj : Nat) : It w := ⟨0, obj⟩

/-- `end()`: soa.hpp:201-203, zip.hpp:197-199. -/
def endSoa {k : Nat} {τ : Fin (k + 1) → Type} (c : Zip.Cols τ) (obj : Nat) : It w := add (beginSoa obj) (Zip.size c)

variable {α : Type}

/-- The range from `indexed_ + indices_[a]` to `indexed_ + indices_[b]`, with the clamp of its constructor: compressed.hpp:179-186, adaptors/splittable_range_adaptor.hpp:49. -/
def readRow (g : Csr α) (a b : BitVec w) : Res (List (Nat × α)) := do
  let x ← vget g.indices a.toNat
  let y ← vget g.indices b.toNat
  let x := if x > y then y else x
  (List.range' x (y - x)).mapM g.edgeAt

/-- The iterators over the vertices of an `indexed_struct_of_arrays` whose index type has `w` bits; they compare `i_` only: compressed.hpp:91-187. -/
def csrOps (g : Csr α) : IterOps (It w) (List (Nat × α)) where
  incr := incr
  decr := decr
  add := add
  sub := sub
  diff := diff
  eq p b := p.i == b.i
  lt p b := decide (p.i.toNat < b.i.toNat)
  gt p b := decide (p.i.toNat > b.i.toNat)
  le p b := decide (p.i.toNat ≤ b.i.toNat)
  ge p b := decide (p.i.toNat ≥ b.i.toNat)
  deref p := readRow g p.i (p.i + 1)
  at_ p n := readRow g (p.i + BitVec.ofInt w n) (p.i + BitVec.ofInt w n + 1)

/-- `begin()`: compressed.hpp:207. -/
def beginCsr (obj : Nat) : It w := ⟨0, obj⟩

/-- `end()`: compressed.hpp:210. -/
def endCsr (g : Csr α) (obj : Nat) : It w := ⟨BitVec.ofNat w g.N, obj⟩

end NW.Iterators
