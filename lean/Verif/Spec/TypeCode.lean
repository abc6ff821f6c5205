import Verif.Spec.MatrixMarket

/-!
# Specification: the type of a Matrix Market file

The letters of a type code and the words of a banner that they stand for (the table at mmio_nist.h:93-103 and the Matrix Market format).
-/

namespace NW.Spec

/-- How the entries are stored. -/
def storageWord (c : Char) : Option (List Char) :=
  if c = 'C' then some "coordinate".toList else if c = 'A' then some "array".toList else none

/-- What the entries are. -/
def elementWord (c : Char) : Option (List Char) :=
  if c = 'R' then some "real".toList else if c = 'C' then some "complex".toList else if c = 'P' then some "pattern".toList else if c = 'I' then some "integer".toList else none

/-- The symmetry. -/
def symmetryWord (c : Char) : Option (List Char) :=
  if c = 'G' then some "general".toList else if c = 'S' then some "symmetric".toList else if c = 'H' then some "hermitian".toList else if c = 'K' then some "skew-symmetric".toList else none

/-- The letters stand for these words. -/
def CodeWords (c : Char × Char × Char × Char) (t : List (List Char)) : Prop :=
  ∃ a b d, c.1 = 'M' ∧ storageWord c.2.1 = some a ∧ elementWord c.2.2.1 = some b ∧ symmetryWord c.2.2.2 = some d ∧ t = ["matrix".toList, a, b, d]

/-- The line is a banner that says what the letters stand for: its first word begins with `%%MatrixMarket`, and the next four, in any case, are those of the letters. -/
def BannerSays (line : List Char) (c : Char × Char × Char × Char) : Prop :=
  ∃ w t more, words line = w :: (t ++ more) ∧ kwBanner <+: w ∧ t.length = 4 ∧ CodeWords c (t.map fun u => u.map Char.toLower)

/-- The types that the format has: a pattern is stored as coordinates, and is general or symmetric; only complex matrices are Hermitian. -/
def Meaningful (c : Char × Char × Char × Char) : Prop :=
  (∃ t, CodeWords c t) ∧ (c.2.2.1 = 'P' → c.2.1 = 'C' ∧ (c.2.2.2 = 'G' ∨ c.2.2.2 = 'S')) ∧ (c.2.2.2 = 'H' → c.2.2.1 = 'C')

end NW.Spec
