import Verif.Model.Binary

/-!
# Model of array_of_structs (containers/aos.hpp) and of histogram (util/util.hpp)

An array of structs is a vector of tuples: a list, or its raw memory (`Bin.Col`) where bytes are read and written.
-/

namespace NW.Aos

/-- The type of the tuples: their size and their representation in memory, with which bytes a tuple is made of. -/
structure Layout (τ : Type) where
  size : Nat
  enc : τ → List UInt8
  dec : List UInt8 → τ

variable {τ : Type}

/-- The memory of an array. -/
def image (L : Layout τ) (xs : List τ) : Bin.Col := ⟨L.size, xs.flatMap L.enc⟩

/-- The tuples in the memory of an array. -/
def elements (L : Layout τ) (c : Bin.Col) : List τ := (List.range c.size).map fun i => L.dec ((c.mem.drop (i * c.elSize)).take c.elSize)

/-- `push_back(attrs)`: aos.hpp:77-79. -/
def pushBack (xs : List τ) (x : τ) : List τ := xs ++ [x]

/-- `serialize(outfile)`: aos.hpp:104-111. -/
def serialize (c : Bin.Col) : List UInt8 :=
  Bin.le 8 c.size ++ Bin.le 8 c.elSize ++ c.mem.take (c.size * c.elSize % 2 ^ 64)

/-- `deserialize(infile)`: aos.hpp:118-126.  The size of the elements that is stored is not compared with that of the array; if it is greater, the bytes do not fit. -/
def deserialize (c : Bin.Col) (s : List UInt8) : Res (Bin.Col × List UInt8) := do
  let (st, s) ← Bin.readInt 8 s
  let (el, s) ← Bin.readInt 8 s
  let c := c.resize st
  let n := st * el % 2 ^ 64
  if c.mem.length < n then .error .memoryClobbered
  else
    let (b, s) ← Bin.readN n s
    return ({ c with mem := b ++ c.mem.drop n }, s)

/-- `operator==`: aos.hpp:81.  `std::equal(policy, begin(), end(), a.begin())` requires the second range to be at least as long as the first; otherwise it reads past its end. -/
def equal [DecidableEq τ] (xs ys : List τ) : Res Bool :=
  if ys.length < xs.length then .error .outOfBounds else .ok (decide (xs = ys.take xs.length))

/-! ## Histogram -/

/-- `histogram(first, last, o_first, o_last)`: util.hpp:141-145 (the values are not tuples). -/
def histogram (input out : List Nat) : Res (List Nat) :=
  input.foldlM (fun o i => do
    let c ← vget o i
    vset o i (c + 1)) (out.map fun _ => 0)

end NW.Aos
