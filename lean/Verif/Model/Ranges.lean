import Verif.Iter
import Verif.Model.Util

/-!
# Model of the splittable range adaptors

`splittable_range_adaptor`, `plain_range`, `neighbor_range`, `plain_degree_range`, `edge_range`, `cyclic_range_adaptor`,
`cyclic_neighbor_range` and `vertex_range`.  TBB may split a range in any way it likes; a `Tree` is one such way.  Iterators
are positions in the underlying sequence; the identity of the containers is not modelled.
-/

namespace NW.Ranges

/-- A way of splitting a range: `node new old` splits it, goes on with the newly constructed range by `new` and
with the range that was split by `old`. -/
inductive Tree where
  | leaf
  | node (new old : Tree)
  deriving DecidableEq

namespace Tree

/-- The number of splits. -/
def splits : Tree → Nat
  | leaf => 0
  | node a b => a.splits + b.splits + 1

end Tree

/-- A range type: its splitting constructor (the new range, and what remains of the old one) and `is_divisible()`. -/
structure Splitter (ρ : Type) where
  split : ρ → ρ × ρ
  divisible : ρ → Bool

namespace Splitter
variable {ρ : Type}

/-- The ranges that are left when a range has been split by `t`. -/
def leaves (s : Splitter ρ) : Tree → ρ → List ρ
  | .leaf, r => [r]
  | .node a b, r => s.leaves a (s.split r).1 ++ s.leaves b (s.split r).2

/-- Only divisible ranges are split. -/
def Legal (s : Splitter ρ) : Tree → ρ → Prop
  | .leaf, _ => True
  | .node a b, r => s.divisible r = true ∧ s.Legal a (s.split r).1 ∧ s.Legal b (s.split r).2

end Splitter

/-- A block of positions `[b, e)`. -/
structure Block where
  b : Nat
  e : Nat
  deriving DecidableEq, Repr

/-- `splittable_range_adaptor(begin, end)`: splittable_range_adaptor.hpp:49. -/
def mkSplittable (b e : Nat) : Block := ⟨if b > e then e else b, e⟩

/-- Splitting a `splittable_range_adaptor`, splittable_range_adaptor.hpp:53-54 and 76-78, or a bit vector's `non_zero_range`,
AtomicBitVector.hpp:231-239: the new range is the first half. -/
def splittable (cutoff : Nat) : Splitter Block where
  split r := (⟨r.b, r.b + (r.e - r.b) / 2⟩, ⟨r.b + (r.e - r.b) / 2, r.e⟩)
  divisible r := decide (r.e - r.b > cutoff)

/-- Splitting a `plain_range`, plain_range.hpp:54-58 and 122-124, a `neighbor_range`, neighbor_range.hpp:43-47, or an
`edge_range`, edge_range.hpp:53-57 and 167-169: the new range is the second half. -/
def outerRange : Splitter Block where
  split r := (⟨r.b + (r.e - r.b) / 2, r.e⟩, ⟨r.b, r.b + (r.e - r.b) / 2⟩)
  divisible r := decide (r.e - r.b > 16)

/-- Iterating a `splittable_range_adaptor` that ends at `e` over the elements `xs`. -/
def splittableIter {β : Type} (xs : List β) (e : Nat) : Iter Nat β where
  atEnd i := .ok (decide (i = e))
  deref i := vget xs i
  next i := .ok (i + 1)

/-- Iterating a `plain_range` that ends at `e`: plain_range.hpp:96-106. -/
def plainIter (e : Nat) : Iter Nat Nat where
  atEnd i := .ok (decide (i = e))
  deref i := .ok i
  next i := .ok (i + 1)

/-- Iterating a `neighbor_range` that ends at `e`: neighbor_range.hpp:78-93; `row u` is `*(g.begin() + u)`.  A
neighbourhood is modelled by its entries, so dereferencing also reads its bounds. -/
def neighborIter {β : Type} (row : Nat → Res (List β)) (e : Nat) : Iter Nat (Nat × List β) where
  atEnd i := .ok (decide (i = e))
  deref i := do
    let r ← row i
    return (i, r)
  next i := .ok (i + 1)

/-- Iterating a `plain_degree_range`: plain_range.hpp:142-167. -/
def degreeIter {β : Type} (row : Nat → Res (List β)) (n : Nat) : Iter Nat (Nat × Nat) where
  atEnd i := .ok (decide (i = n))
  deref i := do
    let r ← row i
    return (i, r.length)
  next i := .ok (i + 1)

/-! ## edge_range -/

/-- The iterator of an `edge_range`: the outer position `first_` and what is left between `u_begin_` and `u_end_`: edge_range.hpp:77-81. -/
structure EdgePos (β : Type) where
  first : Nat
  rest : List β
  deriving DecidableEq

/-- `check()`: edge_range.hpp:85-92.  `first_ != last_` is `<`: the outer position never passes the end. -/
def edgeCheck {β : Type} (row : Nat → Res (List β)) (last : Nat) (p : EdgePos β) : Res (EdgePos β) :=
  if h : p.rest = [] ∧ p.first < last then
    if p.first + 1 ≠ last then do
      let r ← row (p.first + 1)
      edgeCheck row last ⟨p.first + 1, r⟩
    else .ok ⟨p.first + 1, p.rest⟩
  else .ok p
termination_by last - p.first
decreasing_by omega

/-- The constructor of the iterator: edge_range.hpp:95-105. -/
def edgeStart {β : Type} (row : Nat → Res (List β)) (b e : Nat) : Res (EdgePos β) :=
  if b ≠ e then do
    let r ← row b
    edgeCheck row e ⟨b, r⟩
  else .ok ⟨b, []⟩

/-- The iterator's operations: `==` 127-129 compares the outer positions, `++` 135-141, `*` 149. -/
def edgeIter {β : Type} (row : Nat → Res (List β)) (e : Nat) : Iter (EdgePos β) (Nat × β) where
  atEnd p := .ok (decide (p.first = e))
  deref p := match p.rest with
    | [] => .error .outOfBounds
    | x :: _ => .ok (p.first, x)
  next p := match p.rest with
    | [] => .error .outOfBounds
    | _ :: xs => edgeCheck row e ⟨p.first, xs⟩

/-! ## Cyclic ranges -/

/-- A `cyclic_range_adaptor` or `cyclic_neighbor_range` over `n` elements: cyclic_range_adaptor.hpp:36-40.  Positions are
integers, since the offsets are signed. -/
structure Cyclic where
  n : Int
  cutoff : Int
  cycle : Int
  stride : Int
  deriving DecidableEq, Repr

/-- The constructor: cyclic_range_adaptor.hpp:43-45. -/
def mkCyclic (n cutoff : Nat) : Res Cyclic := do
  let k ← Util.ceilLog2 64 cutoff
  let c ← Util.pow2 64 k
  return ⟨n, c, 0, 1⟩

/-- The splitting constructor, cyclic_range_adaptor.hpp:50-51, and `is_divisible`, 96.  The initializers run in the order of the members, so the new
cycle uses the old stride. -/
def cyclic : Splitter Cyclic where
  split r := (⟨r.n, r.cutoff, r.cycle + r.stride, r.stride * 2⟩, ⟨r.n, r.cutoff, r.cycle, r.stride * 2⟩)
  divisible r := decide (r.stride ≤ r.cutoff)

namespace Cyclic

/-- `begin()`: cyclic_range_adaptor.hpp:68. -/
def start (r : Cyclic) : Int := r.cycle

/-- `end()`: cyclic_range_adaptor.hpp:76-81.  `%` truncates towards zero, and the shifted span may be negative. -/
def stop (r : Cyclic) : Int :=
  let n := r.n - r.cycle
  let m := n.tmod r.stride
  let e := (r.stride - m).tmod r.stride
  r.n + e

/-- `size()`: cyclic_range_adaptor.hpp:83-88. -/
def size (r : Cyclic) : Int := r.n.tdiv r.stride + (if r.cycle < r.n.tmod r.stride then 1 else 0)

/-- The iterator: cyclic_range_adaptor.hpp:53-65, over the elements `xs`. -/
def iter {β : Type} (xs : List β) (r : Cyclic) : Iter Int β where
  atEnd i := .ok (decide (i = r.stop))
  deref i := if 0 ≤ i then vget xs i.toNat else .error .outOfBounds
  next i := .ok (i + r.stride)

/-- The iterator of a `cyclic_neighbor_range`: cyclic_neighbor_range.hpp:65-78. -/
def neighborIter {β : Type} (xs : List β) (r : Cyclic) : Iter Int (Nat × β) where
  atEnd i := .ok (decide (i = r.stop))
  deref i := if 0 ≤ i then do
      let x ← vget xs i.toNat
      return (i.toNat, x)
    else .error .outOfBounds
  next i := .ok (i + r.stride)

end Cyclic

/-! ## vertex_range -/

/-- `vertex_range(max)`: vertex_range.hpp:84-85. -/
def mkVertexRange (max : Nat) : Block := ⟨0, max⟩

/-- The splitting constructor copies the range, vertex_range.hpp:90-91; `is_divisible`, 100. -/
def vertexRange : Splitter Block where
  split r := (r, r)
  divisible r := decide (r.b ≤ r.e)

/-- `counting_iterator`: vertex_range.hpp:24-69. -/
def vertexIter (e : Nat) : Iter Nat Nat where
  atEnd i := .ok (decide (i = e))
  deref i := .ok i
  next i := .ok (i + 1)

end NW.Ranges
