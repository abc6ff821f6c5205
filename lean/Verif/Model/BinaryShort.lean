import Verif.Model.Binary

/-!
# Model of loading a binary file that may be too short

`Model/Binary` stops at the first read that comes short.  The code goes on: no read is checked.  A read that comes short stores the bytes there are; all later reads of the stream store
nothing.  Simplification: a number of bytes of `2 ^ 63` or more, which is negative as a `std::streamsize`, is treated like any other number.
-/

namespace NW.Bin

/-- `infile.read(p, n)` where `p` points to the `n` bytes `old`, without a check: what is stored there afterwards, and the rest of the stream. -/
def fillBytes (old s : List UInt8) : List UInt8 × List UInt8 := (s.take old.length ++ old.drop s.length, s.drop old.length)

/-- `size_t x = -1; infile.read(reinterpret_cast<char*>(&x), sizeof(size_t));`: soa.hpp:282-285 and 303-306. -/
def loadSize (s : List UInt8) : Nat × List UInt8 :=
  let r := fillBytes (List.replicate 8 255) s
  (unLe r.1, r.2)

/-- `deserialize(std::istream&, T& vs)`: soa.hpp:280-287. -/
def loadCol (c : Col) (s : List UInt8) : Res (Col × List UInt8) :=
  let st := loadSize s
  let el := loadSize st.2
  let n := st.1 * el.1 % 2 ^ 64
  let got := el.2.take n
  if c.mem.length < got.length then .error .memoryClobbered
  else .ok ({ c with mem := got ++ c.mem.drop got.length }, el.2.drop n)

/-- The fold over the columns: soa.hpp:308. -/
def loadCols : List Col → List UInt8 → Res (List Col × List UInt8)
  | [], s => .ok ([], s)
  | c :: cs, s => do
    let (c', s) ← loadCol c s
    let (cs', s) ← loadCols cs s
    return (c' :: cs', s)

/-- `struct_of_arrays::deserialize(std::istream&)`: soa.hpp:302-309.  `resize` throws if there are more than `cap` elements, which nobody catches. -/
def loadSoa (cap : Nat) (cols : List Col) (s : List UInt8) : Res (List Col × List UInt8) :=
  let st := loadSize s
  let el := loadSize st.2
  if cap < st.1 then .error .terminated else loadCols (cols.map (·.resize st.1)) el.2

/-- `graph_base::deserialize`: graph_base.hpp:81-86 and 117-124 (`k` cardinalities).  The variables `N` are uninitialised before the reads; the flag is set by the caller later. -/
def loadBase : Nat → List UInt8 → Res (List Nat × List UInt8)
  | 0, s => .ok ([], s.drop 1)
  | k + 1, s => do
    let (n, s) ← if s.length < 8 then .error .uninitialised else pure (unLe (s.take 8), s.drop 8)
    let (ns, s) ← loadBase k s
    return (n :: ns, s)

/-- `index_edge_list::deserialize` into an existing list `t`: edge_list.hpp:215-228. -/
def loadEdgeList (cap : Nat) (t : EdgeListMem) (s : List UInt8) : Res (EdgeListMem × List UInt8) := do
  let (cards, s) ← loadBase t.cards.length ((s.drop 27).drop 4)
  let (cols, s) ← loadSoa cap t.cols s
  return ({ cards := cards, isOpen := false, cols := cols }, s)

/-- `indexed_struct_of_arrays::deserialize` into `t`, with 8 byte indices: compressed.hpp:321-334.  A read of `N_` that comes short leaves some of its old bytes. -/
def loadCsr (cap : Nat) (t : CsrMem) (s : List UInt8) : Res (CsrMem × List UInt8) := do
  let n := fillBytes (le 8 t.n) (s.drop 34)
  let st := loadSize n.2
  let el := loadSize st.2
  if cap < st.1 then .error .terminated
  else
    let ind := t.indices.resize st.1
    let m := st.1 * el.1 % 2 ^ 64
    let got := el.2.take m
    if ind.mem.length < got.length then .error .memoryClobbered
    else
      let (cols, s) ← loadSoa cap t.cols (el.2.drop m)
      return ({ n := unLe n.1, after := t.after, indices := { ind with mem := got ++ ind.mem.drop got.length }, cols := cols }, s)

end NW.Bin
