import Verif.Run
import Verif.Iter
import Verif.Model.MatrixMarket

/-!
# Model of io/MatrixMarketFile.hpp and of the functions of io/mmio_nist.h that it uses

The file is a list of characters (none of them NUL).  `fgets`, `sscanf`, `fscanf`, `strtol` and `strchr` follow the C standard (in the "C" locale).  Reading a character at or past the end of the mapped
file is a fault (in C++ it is undefined if the length of the file is a multiple of the size of a page).  An error while opening or mapping the file is not modelled.  `get<Vs>(i)...`, which
reads the values behind the two vertices (with `strtol` or `strtod`), is a parameter.
-/

namespace NW.MmFile
open MM

/-- What is left of the text after at most `n` characters up to and including a newline have been read. -/
def piece : Nat → List Char → List Char × List Char
  | 0, cs => ([], cs)
  | _, [] => ([], [])
  | n + 1, c :: cs => if c = '\n' then ([c], cs) else (c :: (piece n cs).1, (piece n cs).2)

/-- `fgets(line, MM_MAX_LINE_LENGTH, f)`: the line and the rest; `none` at the end of the file. -/
def fgets (cs : List Char) : Option (List Char × List Char) := if cs.isEmpty then none else some (piece 1024 cs)

/-- `%s`: `none` at the end. -/
def scanWord (cs : List Char) : Option (List Char × List Char) :=
  match cs.dropWhile isSpace with
  | [] => none
  | c :: cs => some ((c :: cs).takeWhile (fun c => !isSpace c), (c :: cs).dropWhile (fun c => !isSpace c))

/-- The strings that `sscanf` with `n` times `%s` assigns; there is room for 63 characters in each: mmio_nist.h:200-202. -/
def scanWords : Nat → List Char → Res (List (List Char))
  | 0, _ => return []
  | n + 1, cs => match scanWord cs with
    | none => return []
    | some (w, rest) => do
      if 64 ≤ w.length then .error .memoryClobbered
      else
        let ws ← scanWords n rest
        return w :: ws

/-- A value of type `long` (clamped by `strtol`) converted to `int`. -/
def asInt (neg : Bool) (n : Nat) : Int :=
  let v : Int := if neg then max (-(n : Int)) (-2 ^ 63) else min (n : Int) (2 ^ 63 - 1)
  (v + 2 ^ 31) % 2 ^ 32 - 2 ^ 31

/-- The outcome of a conversion `%d`. -/
inductive Scan where
  | eof
  | mismatch (rest : List Char)
  | value (v : Int) (rest : List Char)

/-- `%d`. -/
def scanInt (cs : List Char) : Scan :=
  match cs.dropWhile isSpace with
  | [] => .eof
  | c :: cs =>
    let sg := takeSign (c :: cs)
    let ds := sg.2.takeWhile isDigit
    let rest := sg.2.dropWhile isDigit
    if ds.isEmpty then .mismatch sg.2 else .value (asInt sg.1 (digitsVal 0 ds)) rest

/-- The outcome of `scanf` with `"%d %d %d"`: `EOF`, fewer than three values (with what is left of the input), or three values. -/
inductive Scan3 where
  | eof
  | fewer (rest : List Char)
  | all (a b c : Int) (rest : List Char)

/-- `"%d %d %d"`: mmio_nist.h:285, 291. -/
def scan3 (cs : List Char) : Scan3 :=
  match scanInt cs with
  | .eof => .eof
  | .mismatch r => .fewer r
  | .value a r => match scanInt r with
    | .eof => .fewer []
    | .mismatch r => .fewer r
    | .value b r => match scanInt r with
      | .eof => .fewer []
      | .mismatch r => .fewer r
      | .value c r => .all a b c r

/-- The fields of the type code: mmio_nist.h:27-42, 73-88. -/
inductive Field where
  | real | complex | pattern | integer
  deriving DecidableEq
inductive Scheme where
  | general | symmetric | hermitian | skew
  deriving DecidableEq
structure TypeCode where
  coordinate : Bool
  field : Field
  scheme : Scheme
  deriving DecidableEq

/-- `tolower` for every character: mmio_nist.h:204-207. -/
def lower (w : List Char) : List Char := w.map Char.toLower

/-- Third field of the banner: mmio_nist.h:234-246; `none` is `MM_UNSUPPORTED_TYPE`. -/
def parseField (w : List Char) : Option Field :=
  if w = "real".toList then some .real
  else if w = "complex".toList then some .complex
  else if w = "pattern".toList then some .pattern
  else if w = "integer".toList then some .integer
  else none

/-- Fourth field: mmio_nist.h:251-263. -/
def parseScheme (w : List Char) : Option Scheme :=
  if w = "general".toList then some .general
  else if w = "symmetric".toList then some .symmetric
  else if w = "hermitian".toList then some .hermitian
  else if w = "skew-symmetric".toList then some .skew
  else none

/-- `mm_read_banner(f, matcode)`: mmio_nist.h:184-267.  `none` is one of the error codes. -/
def readBanner (cs : List Char) : Res (Option (TypeCode × List Char)) :=
  match fgets cs with
  | none => return none
  | some (line, rest) => do
    match ← scanWords 5 line with
    | [banner, mtx, crd, dt, st] =>
      if banner.take 14 ≠ sBanner then return none
      else if lower mtx ≠ "matrix".toList then return none
      else if lower crd ≠ "coordinate".toList ∧ lower crd ≠ "array".toList then return none
      else match parseField (lower dt), parseScheme (lower st) with
        | some f, some s => return some (⟨decide (lower crd = "coordinate".toList), f, s⟩, rest)
        | _, _ => return none
    | _ => return none

/-- The loop that skips comments: mmio_nist.h:278-282; the result is the line behind them. -/
def commentBody (cs : List Char) : Res (List Char ⊕ Option (List Char × List Char)) :=
  match fgets cs with
  | none => return .inr none
  | some (line, rest) => if line.head? = some '%' then return .inl rest else return .inr (some (line, rest))

/-- The loop that looks for the sizes behind a line without them: mmio_nist.h:289-294. -/
def sizeBody (cs : List Char) : Res (List Char ⊕ Option (Int × Int × Int × List Char)) :=
  match scan3 cs with
  | .eof => return .inr none
  | .fewer rest => return .inl rest
  | .all a b c rest => return .inr (some (a, b, c, rest))

/-- `mm_read_mtx_crd_size(f, M, N, nz)`: mmio_nist.h:269-297.  `none` is `MM_PREMATURE_EOF`. -/
def readSizes (cs : List Char) : Run (Option (Int × Int × Int × List Char)) := do
  match ← Run.loop commentBody cs with
  | none => return none
  | some (line, rest) =>
    match scan3 line with
    | .all a b c _ => return some (a, b, c, rest)
    | _ => Run.loop sizeBody rest

/-- An open file: MatrixMarketFile.hpp:44-53. -/
structure File where
  text : List Char
  rows : Int
  cols : Int
  nnz : Int
  first : Nat
  type : TypeCode

/-- The constructor: MatrixMarketFile.hpp:56-101.  Errors end the program. -/
def openFile (text : List Char) : Run File := do
  match ← readBanner text with
  | none => Run.lift (.error .terminated)
  | some (t, rest) =>
    if t.coordinate = false then Run.lift (.error .terminated)
    else
      match ← readSizes rest with
      | none => Run.lift (.error .terminated)
      | some (n, m, nnz, rest) => return { text := text, rows := n, cols := m, nnz := nnz, first := text.length - rest.length, type := t }

/-- `strtol`: the value and the rest.  The character behind the number is read as well. -/
def strtol (cs : List Char) : Res (Int × List Char) :=
  match cs.dropWhile isSpace with
  | [] => .error .outOfBounds
  | c :: cs' =>
    let sg := takeSign (c :: cs')
    let ds := sg.2.takeWhile isDigit
    match sg.2.dropWhile isDigit with
    | [] => .error .outOfBounds
    | d :: rest => if ds.isEmpty then .ok (0, cs) else .ok (asInt sg.1 (digitsVal 0 ds), d :: rest)

/-- `*i` of the iterator; `vals` is `get<Vs>(i)...`: MatrixMarketFile.hpp:138-159. -/
def deref {β : Type} (vals : List Char → Res β) (text : List Char) (i : Nat) : Res (Int × Int × β) := do
  let u ← strtol (text.drop i)
  let v ← strtol u.2
  let x ← vals v.2
  return (u.1 - 1, v.1 - 1, x)

/-- `++i`: behind the next newline: MatrixMarketFile.hpp:161-164. -/
def next (text : List Char) (i : Nat) : Res Nat :=
  let k := ((text.drop i).takeWhile (· ≠ '\n')).length
  if k < (text.drop i).length then .ok (i + k + 1) else .error .outOfBounds

/-- The loop of `at` going back, and `++approx`: MatrixMarketFile.hpp:188-191.  The argument is `approx`. -/
def lineStart (text : List Char) (first : Nat) : Nat → Res Nat
  | 0 => if first ≤ 0 then do
      let c ← vget text 0
      if c ≠ '\n' then return 0 else return 1
    else return 1
  | a + 1 => if first ≤ a + 1 then do
      let c ← vget text (a + 1)
      if c ≠ '\n' then lineStart text first a else return (a + 2)
    else return (a + 2)

/-- `at(edge)`, `begin()` and `end()`: MatrixMarketFile.hpp:169-193.  `approx` is the computation in floating point. -/
def position (f : File) (approx : Nat → Nat) (edge : Nat) : Res Nat :=
  if edge = 0 then return f.first
  else if (edge : Int) = f.nnz then return f.text.length
  else lineStart f.text f.first (approx edge)

/-- The iterators up to the position `stop`. -/
def iter {β : Type} (vals : List Char → Res β) (text : List Char) (stop : Nat) : Iter Nat (Int × Int × β) where
  atEnd i := return decide (i = stop)
  deref := deref vals text
  next := next text

/-- The loop over `edges(mm, j, k)`: MatrixMarketFile.hpp:196-199. -/
def edges {β : Type} (vals : List Char → Res β) (f : File) (approx : Nat → Nat) (jk : Nat × Nat) : Run (List (Int × Int × β)) := do
  let b ← position f approx jk.1
  let e ← position f approx jk.2
  fun o => (iter vals f.text e).Visits b o

end NW.MmFile
