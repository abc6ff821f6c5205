import Verif.Base

/-!
# Specification: what it means to be a random access iterator

After the C++ standard, for the positions `0 … n` of a sequence of `n` elements.
-/

namespace NW.Spec

/-- The operations of an iterator: `++i`, `--i`, `i + d` (and `i += d`), `i - d` (and `i -= d`), `i - j`, the comparisons, `*i`, `i[d]`. -/
structure IterOps (It β : Type) where
  incr : It → It
  decr : It → It
  add : It → Int → It
  sub : It → Int → It
  diff : It → It → Int
  eq : It → It → Bool
  lt : It → It → Bool
  gt : It → It → Bool
  le : It → It → Bool
  ge : It → It → Bool
  deref : It → Res β
  at_ : It → Int → Res β

/-- Moving, comparing and reading, for the iterators `pos 0`, …, `pos n` of a sequence of `n` elements; `val a` is what accessing element `a` gives. -/
structure Positions {It β : Type} (o : IterOps It β) (n : Nat) (pos : Nat → It) (val : Nat → Res β) : Prop where
  incr : ∀ a, a < n → o.incr (pos a) = pos (a + 1)
  decr : ∀ a, a < n → o.decr (pos (a + 1)) = pos a
  add : ∀ (a b : Nat) (d : Int), a ≤ n → b ≤ n → (a : Int) + d = b → o.add (pos a) d = pos b
  sub : ∀ (a b : Nat) (d : Int), a ≤ n → b ≤ n → (a : Int) - d = b → o.sub (pos a) d = pos b
  eq : ∀ a b, a ≤ n → b ≤ n → o.eq (pos a) (pos b) = decide (a = b)
  lt : ∀ a b, a ≤ n → b ≤ n → o.lt (pos a) (pos b) = decide (a < b)
  gt : ∀ a b, a ≤ n → b ≤ n → o.gt (pos a) (pos b) = decide (a > b)
  le : ∀ a b, a ≤ n → b ≤ n → o.le (pos a) (pos b) = decide (a ≤ b)
  ge : ∀ a b, a ≤ n → b ≤ n → o.ge (pos a) (pos b) = decide (a ≥ b)
  deref : ∀ a, a < n → o.deref (pos a) = val a
  at_ : ∀ (a b : Nat) (d : Int), a ≤ n → b < n → (a : Int) + d = b → o.at_ (pos a) d = val b

/-- The difference of two iterators is their distance. -/
def DiffIsDistance {It β : Type} (o : IterOps It β) (n : Nat) (pos : Nat → It) : Prop :=
  ∀ a b, a ≤ n → b ≤ n → o.diff (pos b) (pos a) = (b : Int) - a

end NW.Spec
