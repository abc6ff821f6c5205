import Verif.Model.Csr
import Verif.Model.MatrixMarket

/-!
# Model of the functions that print graphs and of `provenance` (util/provenance.hpp)

Streams keep everything that is written.  Numbers are printed in decimal; a message and the demangled name of a type are any texts.  If a function reads out of
bounds, what it has printed before is not recorded.
-/

namespace NW.Stream
open MM

variable {α : Type}

/-- The texts on `std::cout` and on another stream. -/
structure Streams where
  cout : List Char
  other : List Char
  deriving DecidableEq

/-- The argument `os`: `std::cout`, which is the default, or the other stream. -/
inductive Os | cout | other
  deriving DecidableEq

/-- `os << t`. -/
def Streams.write (s : Streams) (os : Os) (t : List Char) : Streams :=
  match os with
  | .cout => { s with cout := s.cout ++ t }
  | .other => { s with other := s.other ++ t }

/-! ## index_edge_list -/

/-- The body of the loop in `stream_edges`; `sh` are the texts of the attributes: edge_list.hpp:248-251.  It writes to `std::cout`. -/
def edgeOut (sh : α → List (List Char)) (s : Streams) (e : Nat × Nat × α) : Streams :=
  ((showNat e.1 :: showNat e.2.1 :: sh e.2.2).foldl (fun s t => s.write .cout (t ++ [' '])) s).write .cout ['\n']

/-- `stream_edges(os)` and `stream(os)`: edge_list.hpp:247-254. -/
def streamEdges (sh : α → List (List Char)) (_os : Os) (el : EdgeList α) (s : Streams) : Res Streams := do
  let es ← el.elems
  return es.foldl (edgeOut sh) s

/-- `stream_stats(os)`: edge_list.hpp:235-245 (unipartite). -/
def streamStats (name : List Char) (_os : Os) (el : EdgeList α) (s : Streams) : Streams :=
  let s := s.write .cout "% ".toList
  let s := s.write .cout (name ++ ": graph_base::vertex_cardinality = ".toList ++ showNat el.card ++ [' '])
  let s := s.write .cout ("base::size() = ".toList ++ showNat el.size)
  s.write .cout ['\n']

/-! ## indexed_struct_of_arrays -/

/-- The line for one edge: compressed.hpp:298. -/
def pairText (u v : Nat) : List Char := "( ".toList ++ showNat u ++ ", ".toList ++ showNat v ++ " )\n".toList

/-- `stream(msg)`: compressed.hpp:291-301. -/
def streamCsr (msg : List Char) (g : Csr α) (s : Streams) : Res Streams := do
  let rows ← g.outer
  return rows.zipIdx.foldl (fun s r => r.1.foldl (fun s e => s.write .cout (pairText r.2 e.1)) s) (s.write .cout msg)

/-- The loop over `j` in `stream_indices`: compressed.hpp:533-535. -/
def rowOut (g : Csr α) (os : Os) (s : Streams) (j : Nat) : Res Streams := do
  let v ← vget g.tgt j
  return s.write os (showNat v ++ ['\t'])

/-- The loop over `i` in `stream_indices`: compressed.hpp:530-537. -/
def indexOut (g : Csr α) (os : Os) (s : Streams) (i : Nat) : Res Streams := do
  let s := s.write os ("==> ".toList ++ showNat i ++ ": ".toList)
  let b ← vget g.indices i
  let e ← vget g.indices (i + 1)
  let s ← (List.range' b (e - b)).foldlM (rowOut g os) s
  return s.write os ['\n']

/-- `stream_indices(out)`: compressed.hpp:526-539.  If `indices_` is empty, `indices_.size() - 1` is the greatest `size_t` and the first iteration reads `indices_[0]`. -/
def streamIndices (os : Os) (g : Csr α) (s : Streams) : Res Streams := do
  let s := s.write os "\n+++\n".toList
  if g.indices = [] then .error .outOfBounds
  else do
    let s ← (List.range (g.indices.length - 1)).foldlM (indexOut g os) s
    return s.write os "\n+++\n".toList

/-- `stream_stats(os)`: compressed.hpp:541-548. -/
def streamStatsCsr (name : List Char) (_os : Os) (g : Csr α) (s : Streams) : Streams :=
  let s := s.write .cout "% ".toList
  let s := s.write .cout name
  let s := s.write .cout ("indices_.size() ".toList ++ showNat g.indices.length ++ [' '])
  let s := s.write .cout ("to_be_indexed_.size() ".toList ++ showNat g.tgt.length)
  s.write .cout ['\n']

/-! ## array_of_structs -/

/-- The fold expression in `print_helper`: aos.hpp:87. -/
def fieldsOut (os : Os) : Nat → List (List Char) → Streams → Streams
  | _, [], s => s
  | i, t :: ts, s => fieldsOut os (i + 1) ts ((s.write os (if 0 = i then [] else ", ".toList)).write os t)

/-- `print_helper(os, attrs)`: aos.hpp:84-89. -/
def structOut (os : Os) (s : Streams) (ts : List (List Char)) : Streams :=
  (fieldsOut os 0 ts (s.write os "( ".toList)).write os " )\n".toList

/-- `stream(os, msg)`; the elements are given by the texts of their fields: aos.hpp:91-98. -/
def streamAos (os : Os) (msg : List Char) (xs : List (List (List Char))) (s : Streams) : Streams :=
  xs.foldl (structOut os) (s.write os msg)

/-! ## provenance -/

/-- `"\t\n\v\f\r "`: provenance.hpp:25. -/
def trimmed : List Char := ['\t', '\n', '\x0b', '\x0c', '\r', ' ']

/-- `ltrim(str)`: provenance.hpp:25-28.  If there is no other character, `erase(0, npos)` erases everything. -/
def ltrim (t : List Char) : List Char :=
  match t.findIdx? (fun c => !trimmed.contains c) with
  | none => []
  | some k => t.drop k

/-- `rtrim(str)`: provenance.hpp:30-33.  `find_last_not_of` is `k` if the last such character is at `k`; if there is none, `npos + 1` is 0. -/
def rtrim (t : List Char) : List Char :=
  match t.reverse.findIdx? (fun c => !trimmed.contains c) with
  | none => []
  | some k => t.take (t.length - 1 - k + 1)

/-- `trim(str)`: provenance.hpp:35. -/
def trim (t : List Char) : List Char := ltrim (rtrim t)

/-- A call that changes a `provenance`. -/
inductive Note where
  | plain (str : List Char)
  | withFile (fn str : List Char)

/-- `push_back(str)` and `push_back(fn, str)`: provenance.hpp:42-54.  The trimmed copies `f` and `g` are not used. -/
def push (info : List (List Char)) : Note → List (List Char)
  | .plain str => info ++ [trim str]
  | .withFile fn str => info ++ [trim (fn ++ ": ".toList ++ str)]

/-- `stream(os, prefix)`: provenance.hpp:56-60. -/
def streamNotes (os : Os) (pre : List Char) (info : List (List Char)) (s : Streams) : Streams :=
  info.foldl (fun s t => s.write os (pre ++ [' '] ++ t ++ ['\n'])) s

/-- `x = y` for different objects: provenance.hpp:61-65. -/
def assign (x y : List (List Char)) : List (List Char) := y.foldl (fun info j => info ++ [j]) x

/-- `x = x`: the loop runs over the vector that `push_back` changes, so its iterators are invalid after the first `push_back`: provenance.hpp:61-65. -/
def assignSelf (x : List (List Char)) : Res (List (List Char)) :=
  if x = [] then .ok x else .error .memoryClobbered

end NW.Stream
