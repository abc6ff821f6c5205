import Verif.Model.Oracle

/-!
# Specification: who appeared with whom, and numbers of links
-/

namespace NW.Oracle

variable {T N : Type}

/-- `a` is in the cast of the title `t`. -/
def Starred (data : List (Record T N)) (t : T) (a : N) : Prop := ∃ r ∈ data, r.title = t ∧ a ∈ r.cast

/-- `a` and `b` are two of the cast of the title `t`. -/
def CoStar (data : List (Record T N)) (t : T) (a b : N) : Prop := a ≠ b ∧ Starred data t a ∧ Starred data t b

/-- `a` is joined to `kb` by `n` links of two who were in the cast of the same title. -/
inductive Linked (data : List (Record T N)) (kb : N) : N → Nat → Prop
  | self : Linked data kb kb 0
  | link {a b : N} {t : T} {n : Nat} : Linked data kb a n → CoStar data t a b → Linked data kb b (n + 1)

/-- The number of `a` with respect to `kb`: the least number of links. -/
def BaconNumber (data : List (Record T N)) (kb a : N) (d : Nat) : Prop := Linked data kb a d ∧ ∀ n, Linked data kb a n → d ≤ n

/-- The lines lead from `a` to `kb`, each naming two of the cast of the title. -/
def IsPath (data : List (Record T N)) (kb : N) : N → List (N × N × T) → Prop
  | a, [] => a = kb
  | a, (x, y, t) :: ls => x = a ∧ CoStar data t x y ∧ IsPath data kb y ls

end NW.Oracle
