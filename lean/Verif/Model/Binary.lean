import Verif.Model.EdgeList

/-!
# Model of the binary save/load code

Bytes are `UInt8`; a column of a struct of arrays is its raw memory together with the size of an
element; integers are stored little-endian (x86-64).  `std::ofstream::write` appends, `std::ifstream::read`
consumes; a read past the end of the stream is the fault `shortRead`.
-/

namespace NW.Bin

/-- `k` bytes of the little-endian representation of `n`. -/
def le : Nat → Nat → List UInt8
  | 0, _ => []
  | k + 1, n => UInt8.ofNat (n % 256) :: le k (n / 256)

/-- The number stored in little-endian bytes. -/
def unLe : List UInt8 → Nat
  | [] => 0
  | b :: bs => b.toNat + 256 * unLe bs

/-- `infile.read(p, n)`. -/
def readN (n : Nat) (s : List UInt8) : Res (List UInt8 × List UInt8) :=
  if n ≤ s.length then .ok (s.take n, s.drop n) else .error .shortRead

/-- `infile.read(reinterpret_cast<char*>(&x), k)` for an integer `x` of `k` bytes. -/
def readInt (k : Nat) (s : List UInt8) : Res (Nat × List UInt8) := do
  let (b, s) ← readN k s
  return (unLe b, s)

/-- One column `std::vector<T>`: `elSize` is `sizeof(T)`, `mem` the raw memory of all elements. -/
structure Col where
  elSize : Nat
  mem : List UInt8
  deriving DecidableEq, Repr

/-- `vs.size()`. -/
def Col.size (c : Col) : Nat := c.mem.length / c.elSize

/-- `vs.resize(n)`: keeps a prefix of the old elements and appends zero-initialised ones (soa.hpp:263-265). -/
def Col.resize (c : Col) (n : Nat) : Col :=
  { c with mem := c.mem.take (n * c.elSize) ++ List.replicate (n * c.elSize - c.mem.length) 0 }

/-- `serialize(std::ostream&, const T& vs)`: soa.hpp:271-278. -/
def writeCol (c : Col) : List UInt8 :=
  le 8 c.size ++ le 8 c.elSize ++ c.mem.take (c.size * c.elSize % 2 ^ 64)

/-- `deserialize(std::istream&, T& vs)`: soa.hpp:280-287.  The bytes go to `vs.data()`; more bytes than the vector
holds clobber foreign memory. -/
def readCol (c : Col) (s : List UInt8) : Res (Col × List UInt8) := do
  let (st, s) ← readInt 8 s
  let (el, s) ← readInt 8 s
  let n := st * el % 2 ^ 64
  if c.mem.length < n then .error .memoryClobbered
  else
    let (b, s) ← readN n s
    return ({ c with mem := b ++ c.mem.drop n }, s)

/-- `struct_of_arrays::serialize(std::ostream&)`: soa.hpp:289-295. -/
def writeSoa (cols : List Col) : List UInt8 :=
  le 8 ((cols.head?.map Col.size).getD 0) ++ le 8 cols.length ++ cols.flatMap writeCol

/-- The fold over the columns in `deserialize`: soa.hpp:308. -/
def readCols : List Col → List UInt8 → Res (List Col × List UInt8)
  | [], s => .ok ([], s)
  | c :: cs, s => do
    let (c', s) ← readCol c s
    let (cs', s) ← readCols cs s
    return (c' :: cs', s)

/-- `struct_of_arrays::deserialize(std::istream&)`: soa.hpp:302-309 (the stored number of columns is ignored). -/
def readSoa (cols : List Col) (s : List UInt8) : Res (List Col × List UInt8) := do
  let (st, s) ← readInt 8 s
  let (_, s) ← readInt 8 s
  readCols (cols.map (·.resize st)) s

/-! ## Edge lists -/

/-- An `index_edge_list` as memory: the cardinalities of its `graph_base` (one for a unipartite, two for a
bipartite list), the open flag and the columns; graph_base.hpp:59-129, edge_list.hpp:68-69. -/
structure EdgeListMem where
  cards : List Nat
  isOpen : Bool
  cols : List Col
  deriving DecidableEq, Repr

/-- The array `magic`, 27 bytes: edge_list.hpp:190. -/
def edgeListMagic : List UInt8 :=
  ("NW Graph index_edge_list".toList.map fun c => UInt8.ofNat c.toNat) ++ [0, 0, 0]

/-- `graph_base::serialize`: graph_base.hpp:71-74 and 106-110. -/
def writeBase (cards : List Nat) (isOpen : Bool) : List UInt8 :=
  cards.flatMap (le 8) ++ [if isOpen then 1 else 0]

/-- `graph_base::deserialize`: graph_base.hpp:81-86 and 117-124 (`k` cardinalities). -/
def readBase : Nat → List UInt8 → Res (List Nat × Bool × List UInt8)
  | 0, s => do
    let (b, s) ← readInt 1 s
    return ([], b != 0, s)
  | k + 1, s => do
    let (n, s) ← readInt 8 s
    let (ns, b, s) ← readBase k s
    return (n :: ns, b, s)

/-- `index_edge_list::serialize`: edge_list.hpp:197-203; `d` is the numeric value of the directedness. -/
def writeEdgeList (d : Nat) (el : EdgeListMem) : List UInt8 :=
  edgeListMagic ++ le 4 d ++ writeBase el.cards el.isOpen ++ writeSoa el.cols

/-- `index_edge_list::deserialize` into an existing list `t`: edge_list.hpp:215-228.  The magic bytes are not
examined and a different directedness only prints a warning. -/
def readEdgeList (t : EdgeListMem) (s : List UInt8) : Res (EdgeListMem × List UInt8) := do
  let (_, s) ← readN 27 s
  let (_, s) ← readInt 4 s
  let (cards, _, s) ← readBase t.cards.length s
  let (cols, s) ← readSoa t.cols s
  return ({ cards := cards, isOpen := false, cols := cols }, s)

/-! ## Memory images of typed edge lists -/

/-- One trivially copyable attribute of the attribute tuple `α`: its size and its bytes. -/
structure Field (α : Type) where
  size : Nat
  enc : α → List UInt8

/-- A `std::vector` of `k`-byte unsigned integers. -/
def Col.ofNats (k : Nat) (xs : List Nat) : Col := ⟨k, xs.flatMap (le k)⟩

/-- The column of one attribute. -/
def Col.ofField {α : Type} (f : Field α) (as : List α) : Col := ⟨f.size, as.flatMap f.enc⟩

/-- Memory image of an edge list with `k`-byte vertex ids and attributes `fs`. -/
def imageOf {α : Type} (k : Nat) (fs : List (Field α)) (el : EdgeList α) : EdgeListMem :=
  { cards := [el.card], isOpen := el.isOpen
    cols := Col.ofNats k el.col0 :: Col.ofNats k el.col1 :: fs.map (fun f => Col.ofField f el.attrs) }

/-- Memory image of a bipartite edge list. -/
def imageOfBi {α : Type} (k : Nat) (fs : List (Field α)) (el : BiEdgeList α) : EdgeListMem :=
  { cards := [el.card0, el.card1], isOpen := el.isOpen
    cols := Col.ofNats k el.col0 :: Col.ofNats k el.col1 :: fs.map (fun f => Col.ofField f el.attrs) }

/-! ## Compressed structures -/

/-- An `indexed_struct_of_arrays<index_t, ...>` as memory: compressed.hpp:60-69.  `after` are the bytes that
follow `N_` inside the eight bytes starting at `&N_`: none for an 8-byte `index_t`; for a 4-byte
`index_t` the low half of the begin pointer of `indices_` (x86-64 layout: `is_open_` at offset 0, `N_` at
4, `indices_` at 8). -/
structure CsrMem where
  n : Nat
  after : List UInt8
  indices : Col
  cols : List Col
  deriving DecidableEq, Repr

/-- The array `magic_`, 34 bytes: compressed.hpp:61. -/
def csrMagic : List UInt8 :=
  ("NW GRAPH indexed_struct_of_arrays".toList.map fun c => UInt8.ofNat c.toNat) ++ [0]

/-- `serialize(std::ostream&)`: compressed.hpp:303-314, `k = sizeof(index_t)`; eight bytes are written from
the address of `N_`. -/
def writeCsr (k : Nat) (g : CsrMem) : List UInt8 :=
  csrMagic ++ (le k g.n ++ g.after) ++ le 8 g.indices.size ++ le 8 k ++
    g.indices.mem.take (g.indices.size * k % 2 ^ 64) ++ writeSoa g.cols

/-- `deserialize(std::istream&)` into `t`: compressed.hpp:321-334.  Eight bytes are read to the address of `N_`;
if that changes the bytes behind `N_` (the pointer of `indices_`), the following `indices_.resize` runs on a
corrupted vector. -/
def readCsr (k : Nat) (t : CsrMem) (s : List UInt8) : Res (CsrMem × List UInt8) := do
  let (_, s) ← readN 34 s
  let (n, s) ← readInt k s
  let (a, s) ← readN (8 - k) s
  if a ≠ t.after then .error .memoryClobbered
  else
    let (st, s) ← readInt 8 s
    let (el, s) ← readInt 8 s
    let ind := t.indices.resize st
    let m := st * el % 2 ^ 64
    if ind.mem.length < m then .error .memoryClobbered
    else
      let (b, s) ← readN m s
      let (cols, s) ← readSoa t.cols s
      return ({ n := n, after := t.after, indices := { ind with mem := b ++ ind.mem.drop m }, cols := cols }, s)

/-- `index_biadjacency::serialize` / `index_adjacency::serialize`: adjacency.hpp:158-162, 281-285 (the base class
part, then the structure).  The unipartite one is declared `const` although the base function is not, so
it does not compile when instantiated; the model gives it the meaning of the bipartite one. -/
def writeAdjacency (k : Nat) (cards : List Nat) (isOpen : Bool) (g : CsrMem) : List UInt8 :=
  writeBase cards isOpen ++ writeCsr k g

/-- `deserialize`: adjacency.hpp:169-173, 292-296. -/
def readAdjacency (k nc : Nat) (t : CsrMem) (s : List UInt8) : Res (List Nat × Bool × CsrMem × List UInt8) := do
  let (cards, o, s) ← readBase nc s
  let (g, s) ← readCsr k t s
  return (cards, o, g, s)

end NW.Bin
