import Verif.Model.MmFile

/-!
# Model of the type codes of io/mmio_nist.h, letter by letter

`Model/MmFile` has the same functions with the type code as a structure; here the four characters are kept, also when an error is returned.
-/

namespace NW.TypeCode
open MM MmFile

/-- `MM_typecode`: mmio_nist.h:22. -/
abbrev Code := Char × Char × Char × Char

/-- `mm_clear_typecode`: mmio_nist.h:73-74. -/
def cleared : Code := (' ', ' ', ' ', 'G')

/-- `mm_is_valid(matcode)`: mmio_nist.h:44-52. -/
def isValid (c : Code) : Bool :=
  if c.1 ≠ 'M' then false
  else if c.2.1 = 'A' ∧ c.2.2.1 = 'P' then false
  else if c.2.2.1 = 'R' ∧ c.2.2.2 = 'H' then false
  else if c.2.2.1 = 'P' ∧ (c.2.2.2 = 'H' ∨ c.2.2.2 = 'K') then false
  else true

/-- `mm_typecode_to_str(matcode)`: mmio_nist.h:129-182; `none` is `NULL`, and `types[0]` has no value unless it is given one. -/
def toStr (c : Code) : Res (Option (List Char)) :=
  let t0 := if c.1 = 'M' then some "matrix".toList else none
  let t1 := if c.2.1 = 'C' then some "coordinate".toList else if c.2.1 = 'A' then some "array".toList else none
  let t2 := if c.2.2.1 = 'R' then some "real".toList else if c.2.2.1 = 'C' then some "complex".toList else if c.2.2.1 = 'P' then some "pattern".toList
    else if c.2.2.1 = 'I' then some "integer".toList else none
  let t3 := if c.2.2.2 = 'G' then some "general".toList else if c.2.2.2 = 'S' then some "symmetric".toList else if c.2.2.2 = 'H' then some "hermitian".toList
    else if c.2.2.2 = 'K' then some "skew-symmetric".toList else none
  match t1, t2, t3 with
  | some a, some b, some d => match t0 with
    | none => .error .uninitialised
    | some m => .ok (some (m ++ ' ' :: a ++ ' ' :: b ++ ' ' :: d))
  | _, _, _ => .ok none

/-- The letter for the third field: mmio_nist.h:234-246. -/
def elementLetter (w : List Char) : Option Char :=
  if w = "real".toList then some 'R' else if w = "complex".toList then some 'C' else if w = "pattern".toList then some 'P' else if w = "integer".toList then some 'I' else none

/-- The letter for the fourth field: mmio_nist.h:251-263. -/
def symmetryLetter (w : List Char) : Option Char :=
  if w = "general".toList then some 'G' else if w = "symmetric".toList then some 'S' else if w = "hermitian".toList then some 'H'
  else if w = "skew-symmetric".toList then some 'K' else none

/-- The letter for the second field: mmio_nist.h:223-229. -/
def storageLetter (w : List Char) : Option Char :=
  if w = "coordinate".toList then some 'C' else if w = "array".toList then some 'A' else none

/-- `mm_read_banner(f, matcode)`: what it returns, the type code it leaves and the rest of the file: mmio_nist.h:184-267. -/
def readBanner (cs : List Char) : Res (Nat × Code × List Char) :=
  match fgets cs with
  | none => return (12, cleared, cs)
  | some (line, rest) => do
    match ← scanWords 5 line with
    | [banner, mtx, crd, dt, st] =>
      if banner.take 14 ≠ sBanner then return (14, cleared, rest)
      else if lower mtx ≠ "matrix".toList then return (15, cleared, rest)
      else match storageLetter (lower crd) with
        | none => return (15, ('M', ' ', ' ', 'G'), rest)
        | some a => match elementLetter (lower dt) with
          | none => return (15, ('M', a, ' ', 'G'), rest)
          | some b => match symmetryLetter (lower st) with
            | none => return (15, ('M', a, b, 'G'), rest)
            | some d => return (0, ('M', a, b, d), rest)
    | _ => return (12, cleared, rest)

/-- The outcome of `scanf` with `"%d %d"`. -/
inductive Scan2 where
  | eof
  | fewer (rest : List Char)
  | all (a b : Int) (rest : List Char)

/-- `"%d %d"`: mmio_nist.h:314, 320. -/
def scan2 (cs : List Char) : Scan2 :=
  match scanInt cs with
  | .eof => .eof
  | .mismatch r => .fewer r
  | .value a r => match scanInt r with
    | .eof => .fewer []
    | .mismatch r => .fewer r
    | .value b r => .all a b r

/-- The loop behind a line without sizes: mmio_nist.h:318-323. -/
def arrayBody (cs : List Char) : Res (List Char ⊕ Option (Int × Int × List Char)) :=
  match scan2 cs with
  | .eof => return .inr none
  | .fewer rest => return .inl rest
  | .all a b rest => return .inr (some (a, b, rest))

/-- `mm_read_mtx_array_size(f, M, N)`: mmio_nist.h:299-326; `none` is `MM_PREMATURE_EOF`.  The loop over the comments is that of `mm_read_mtx_crd_size`. -/
def arraySize (cs : List Char) : Run (Option (Int × Int × List Char)) := do
  match ← Run.loop commentBody cs with
  | none => return none
  | some (line, rest) =>
    match scan2 line with
    | .all a b _ => return some (a, b, rest)
    | _ => Run.loop arrayBody rest

end NW.TypeCode
