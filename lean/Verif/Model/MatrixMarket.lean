import Verif.Model.Csr
import Mathlib.Data.List.Basic

/-!
# Model of io/mmio.hpp

Streams are lists of characters.  `std::getline`, `stream >> std::string` and `stream >> size_t` follow the C++ standard (in the "C" locale).  Simplification: extracting a value
(`>> v`, of the attribute type) consumes a whole word; what value it yields, and how a value is printed, are parameters.
Messages to `std::cerr` are omitted; `throw;` without an active exception terminates the program.
-/

namespace NW.MM

/-- `std::isspace`. -/
def isSpace (c : Char) : Bool := c = ' ' || c = '\t' || c = '\n' || c = '\x0b' || c = '\x0c' || c = '\r'

/-- `std::isdigit`. -/
def isDigit (c : Char) : Bool := '0' ≤ c && c ≤ '9'

/-- The string literals compared with the header: mmio.hpp:183, 187, 189, 205. -/
def sBanner : List Char := "%%MatrixMarket".toList
def sSymmetric : List Char := "symmetric".toList
def sGeneral : List Char := "general".toList
def sPattern : List Char := "pattern".toList

/-- An input stream: the characters left, and whether no error flag is set. -/
structure In where
  chars : List Char
  good : Bool

/-- `std::getline(stream, buffer)`: the line and the rest; `none` if there is nothing left. -/
def getline (cs : List Char) : Option (List Char × List Char) :=
  if cs.isEmpty then none else some (cs.takeWhile (· ≠ '\n'), (cs.dropWhile (· ≠ '\n')).drop 1)

/-- The number read so far, continued by the digits. -/
def digitsVal : Nat → List Char → Nat
  | acc, [] => acc
  | acc, c :: cs => digitsVal (acc * 10 + (c.toNat - 48)) cs

/-- An optional sign. -/
def takeSign : List Char → Bool × List Char
  | '-' :: cs => (true, cs)
  | '+' :: cs => (false, cs)
  | cs => (false, cs)

/-- `stream >> d` for a `size_t d`.  The first component is the value assigned to `d`, `none` if `d` is left alone (the stream had failed or ended). -/
def readSize (s : In) : Option Nat × In :=
  if s.good = false then (none, s)
  else
    match s.chars.dropWhile isSpace with
    | [] => (none, ⟨[], false⟩)
    | c :: cs =>
      let sg := takeSign (c :: cs)
      let ds := sg.2.takeWhile isDigit
      let rest := sg.2.dropWhile isDigit
      if ds.isEmpty then (some 0, ⟨rest, false⟩)
      else if digitsVal 0 ds ≥ 2 ^ 64 then (some (2 ^ 64 - 1), ⟨rest, false⟩)
      else (some (if sg.1 then (2 ^ 64 - digitsVal 0 ds) % 2 ^ 64 else digitsVal 0 ds), ⟨rest, true⟩)

/-- `stream >> s` for a `std::string s`; `none` if `s` is left alone. -/
def readWord (s : In) : Option (List Char) × In :=
  if s.good = false then (none, s)
  else
    match s.chars.dropWhile isSpace with
    | [] => (none, ⟨[], false⟩)
    | c :: cs => (some ((c :: cs).takeWhile (fun c => !isSpace c)), ⟨(c :: cs).dropWhile (fun c => !isSpace c), true⟩)

/-- The attribute type `T`: `T(1.0)`, the value `>>` reads from a word, and what `<<` prints. -/
structure Val (α : Type) where
  one : α
  rd : List Char → α
  wr : α → List Char

/-- Using a `size_t` that may not have been assigned. -/
def assigned : Option Nat → Res Nat
  | some n => .ok n
  | none => .error .uninitialised

/-- `d - 1` on `size_t`. -/
def decr (d : Nat) : Nat := (d + 2 ^ 64 - 1) % 2 ^ 64

/-- `std::stringstream(buffer) >> d0 >> d1` and, unless `pattern`, `>> v` with `v` initialised to `T(1.0)`: mmio.hpp:113-120 (45-49, 66-75, 90-94, 157-165). -/
def parseEntry {α : Type} (V : Val α) (pattern : Bool) (buffer : List Char) : Res (Nat × Nat × α) := do
  let a := readSize ⟨buffer, true⟩
  let b := readSize a.2
  let v := if pattern then V.one else ((readWord b.2).1.map V.rd).getD V.one
  let d0 ← assigned a.1
  let d1 ← assigned b.1
  return (d0, d1, v)

/-- The loop of `mm_fill` for `edge_list<directed>` and `edge_list<directed, T>`: mmio.hpp:89-101, 110-127. -/
def fillDirected {α : Type} (V : Val α) (w : Nat) (symmetric pattern : Bool) : Nat → List Char → EdgeList α → Res (EdgeList α)
  | 0, _, el => return el
  | n + 1, cs, el => do
    let line := (getline cs).getD ([], [])
    let e ← parseEntry V pattern line.1
    let el ← el.pushBack w (decr e.1) (decr e.2.1) e.2.2
    let el ← if symmetric && decide (e.1 ≠ e.2.1) then el.pushBack w (decr e.2.1) (decr e.1) e.2.2 else pure el
    fillDirected V w symmetric pattern n line.2 el

/-- The loop of `mm_fill` for `edge_list<undirected, T>`: mmio.hpp:156-167. -/
def fillUndirected {α : Type} (V : Val α) (w : Nat) (pattern : Bool) : Nat → List Char → EdgeList α → Res (EdgeList α)
  | 0, _, el => return el
  | n + 1, cs, el => do
    let line := (getline cs).getD ([], [])
    let e ← parseEntry V pattern line.1
    let el ← el.pushBack w (decr e.1) (decr e.2.1) e.2.2
    fillUndirected V w pattern n line.2 el

/-- The loop of `mm_fill` for `edge_list<undirected>`, which extracts from the stream itself: mmio.hpp:136-147. -/
def fillPlain (w : Nat) (pattern : Bool) : Nat → In → EdgeList Unit → Res (EdgeList Unit)
  | 0, _, el => return el
  | n + 1, s, el => do
    let a := readSize s
    let b := readSize a.2
    let s' := if pattern then b.2 else (readWord b.2).2
    let d0 ← assigned a.1
    let d1 ← assigned b.1
    let el ← el.pushBack w (decr d0) (decr d1) ()
    fillPlain w pattern n s' el

/-- `for (auto& s : header) h >> s` with five strings: mmio.hpp:175-181. -/
def headerWords : Nat → In → List (List Char)
  | 0, _ => []
  | n + 1, s => ((readWord s).1.getD []) :: headerWords n (readWord s).2

/-- The loop that skips the comments: mmio.hpp:196-198.  Returns `string_input` after the loop and what is left of the stream. -/
def skipComments (cs : List Char) : List Char × List Char :=
  match h : getline cs with
  | none => ([], cs)
  | some (l, rest) => if l.head? = some '%' then skipComments rest else (l, rest)
termination_by cs.length
decreasing_by

  unfold getline at h
  split at h
  · cases h
  · rename_i hne
    cases h
    have h1 := (List.dropWhile_suffix (l := cs) (· ≠ '\n')).length_le
    have h2 : cs ≠ [] := by intro e; rw [e] at hne; exact hne rfl
    have h3 : 0 < cs.length := List.length_pos_iff.2 h2
    simp only [List.length_drop]
    omega

/-- What `read_mm` finds before the entries. -/
structure Prelude where
  symmetric : Bool
  pattern : Bool
  rows : Nat
  cols : Nat
  count : Nat
  rest : List Char

/-- `read_mm` up to the sizes: mmio.hpp:173-200. -/
def readPrelude (text : List Char) : Res Prelude := do
  let first := (getline text).getD ([], [])
  let header := headerWords 5 ⟨first.1, true⟩
  if header[0]? ≠ some sBanner then .error .terminated
  else if header[4]? ≠ some sSymmetric ∧ header[4]? ≠ some sGeneral then .error .terminated
  else
    let r := skipComments first.2
    let n := readSize ⟨r.1, true⟩
    let m := readSize n.2
    let k := readSize m.2
    let n0 ← assigned n.1
    let n1 ← assigned m.1
    let nnz ← assigned k.1
    return ⟨header[4]? = some sSymmetric, header[3]? = some sPattern, n0, n1, nnz, r.2⟩

/-- `read_mm<directed, T>` (and, with `α = Unit`, `read_mm<directed>`): mmio.hpp:171-208. -/
def readDirected {α : Type} (V : Val α) (w : Nat) (text : List Char) : Res (EdgeList α) := do
  let p ← readPrelude text
  let el ← fillDirected V w p.symmetric p.pattern p.count p.rest (EdgeList.new p.rows).openForPushBack
  return el.closeForPushBack

/-- `read_mm<undirected, T>`: mmio.hpp:171-208. -/
def readUndirected {α : Type} (V : Val α) (w : Nat) (text : List Char) : Res (EdgeList α) := do
  let p ← readPrelude text
  let el ← fillUndirected V w p.pattern p.count p.rest (EdgeList.new p.rows).openForPushBack
  return el.closeForPushBack

/-- `read_mm<undirected>`: mmio.hpp:171-208. -/
def readPlain (w : Nat) (text : List Char) : Res (EdgeList Unit) := do
  let p ← readPrelude text
  let el ← fillPlain w p.pattern p.count ⟨p.rest, true⟩ (EdgeList.new p.rows).openForPushBack
  return el.closeForPushBack

/-- `is_mm`: mmio.hpp:340-352. -/
def isMM (text : List Char) : Bool :=
  (headerWords 5 ⟨((getline text).getD ([], [])).1, true⟩)[0]? = some sBanner

/-- `get_mm_symmetry` (`true` for undirected): mmio.hpp:354-375. -/
def getSymmetry (text : List Char) : Res Bool :=
  let header := headerWords 5 ⟨((getline text).getD ([], [])).1, true⟩
  if header[0]? ≠ some sBanner then .error .terminated
  else return header[4]? = some sSymmetric

/-- `stream << n` for an unsigned integer. -/
def showNat (n : Nat) : List Char :=
  if n < 10 then [Char.ofNat (48 + n)] else showNat (n / 10) ++ [Char.ofNat (48 + n % 10)]

/-- The line written for one element: mmio.hpp:393-395. `id + 1` is computed in the vertex type. -/
def entryText {α : Type} (V : Val α) (w : Nat) (weighted : Bool) (i j : Nat) (a : α) : List Char :=
  showNat ((i + 1) % 2 ^ w) ++ ' ' :: showNat ((j + 1) % 2 ^ w) ++ (if weighted then ' ' :: V.wr a else []) ++ ['\n']

/-- `aos_stream` for `edge_list<sym, Attributes...>`; `weighted` is `w_idx != 0`: mmio.hpp:377-402. -/
def aosStream {α : Type} (V : Val α) (w : Nat) (weighted undirected : Bool) (fileSymmetry wType : List Char) (el : EdgeList α) : Res (List Char) := do
  let double := decide (fileSymmetry = sGeneral) && undirected
  let es ← el.elems
  return "%%MatrixMarket matrix coordinate ".toList ++ wType ++ ' ' :: fileSymmetry ++ "\n%%\n".toList
    ++ showNat el.numVertices ++ ' ' :: showNat el.numVertices ++ ' ' :: showNat (if double then 2 * el.size else el.size) ++ '\n' ::
    es.flatMap fun e => entryText V w weighted e.1 e.2.1 e.2.2 ++ if double then entryText V w weighted e.2.1 e.1 e.2.2 else []

/-- `write_mm` for edge lists; `wType` is determined by the template argument `idxtype`: mmio.hpp:404-418. -/
def writeMM {α : Type} (V : Val α) (w : Nat) (weighted undirected : Bool) (wType : List Char) (el : EdgeList α) (fileSymmetry : List Char) : Res (List Char) :=
  aosStream V w weighted undirected fileSymmetry wType el

/-- The line written for one edge of row `u` of an `adjacency<idx>`: mmio.hpp:429-431. -/
def adjText {α : Type} (V : Val α) (w : Nat) (weighted : Bool) (idx u : Nat) (e : Nat × α) : List Char :=
  showNat (u + (1 - idx)) ++ ' ' :: showNat ((e.1 + (1 - idx)) % 2 ^ w) ++ (if weighted then ' ' :: V.wr e.2 else []) ++ ['\n']

/-- `adjacency_stream` and `write_mm` for `adjacency<idx, Attributes...>`: mmio.hpp:420-452.  Simplification: the number of edges, an `int`, does not overflow. -/
def writeAdjacency {α : Type} (V : Val α) (w : Nat) (weighted : Bool) (idx : Nat) (wType : List Char) (g : Csr α) (fileSymmetry : List Char) : Res (List Char) := do
  let rows ← g.outer
  return "%%MatrixMarket matrix coordinate ".toList ++ wType ++ ' ' :: fileSymmetry ++ "\n%%\n".toList
    ++ showNat g.numVertices ++ ' ' :: showNat g.numVertices ++ ' ' :: showNat (rows.foldl (fun a b => a + b.length) 0) ++ '\n' ::
    rows.zipIdx.flatMap fun r => r.1.flatMap fun e => adjText V w weighted idx r.2 e

/-- `read_mm_vector` for an integral type `T` of `w` bits and a file whose field is not `real`: mmio.hpp:277-329. -/
def readVector (w : Nat) (text : List Char) : Res (List Nat) := do
  let first := (getline text).getD ([], [])
  let header := headerWords 5 ⟨first.1, true⟩
  if header[0]? ≠ some sBanner then .error .terminated
  else if header[4]? ≠ some sSymmetric ∧ header[4]? ≠ some sGeneral then .error .terminated
  else
    let r := skipComments first.2
    let n := readSize ⟨r.1, true⟩
    let m := readSize n.2
    let n0 ← assigned n.1
    let n1 ← assigned m.1
    check (decide (1 = n1))
    let rec loop : Nat → Option Nat → In → Res (List Nat)
      | 0, _, _ => .ok []
      | k + 1, d, s => do
        let x := readSize s
        let d := match x.1 with | some v => some v | none => d
        let v ← assigned d
        let vs ← loop k d x.2
        return (decr v % 2 ^ w) :: vs
    loop n0 none ⟨r.2, true⟩

end NW.MM
