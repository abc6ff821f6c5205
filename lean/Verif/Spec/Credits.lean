import Verif.Model.Imdb

/-! # Specification: the acting credits for movies, and numbers of links -/

namespace NW.Imdb

variable {T N : Type}

/-- The table of titles lists `k` as a movie. -/
def IsMovie (t : Tables T N) (k : T) : Prop := ∃ x, (k, "movie", x) ∈ t.titles

/-- The table of names lists `a`. -/
def IsListed (t : Tables T N) (a : N) : Prop := ∃ x, (a, x) ∈ t.names

/-- `a` has a credit as an actor or actress for the title `k`. -/
def Acted (t : Tables T N) (k : T) (a : N) : Prop := ∃ c, (k, a, c) ∈ t.principals.drop 1 ∧ (c = "actor" ∨ c = "actress")

/-- `a` and `b` are two of the actors of the movie `k`. -/
def CoActors (t : Tables T N) (k : T) (a b : N) : Prop := a ≠ b ∧ IsMovie t k ∧ Acted t k a ∧ Acted t k b

/-- `a` is joined to `kb` by `n` links of two who acted in the same movie. -/
inductive Joined (t : Tables T N) (kb : N) : N → Nat → Prop
  | self : Joined t kb kb 0
  | link {a b : N} {k : T} {n : Nat} : Joined t kb a n → CoActors t k a b → Joined t kb b (n + 1)

/-- The least number of links. -/
def Number (t : Tables T N) (kb a : N) (d : Nat) : Prop := Joined t kb a d ∧ ∀ n, Joined t kb a n → d ≤ n

/-- The lines lead from `a` to `kb`, each naming two of the actors of a movie, by their rows in the tables. -/
def IsChain (t : Tables T N) (kb : N) : N → List ((N × String) × (N × String) × (T × String × String)) → Prop
  | a, [] => a = kb
  | a, (x, y, m) :: ls => x.1 = a ∧ x ∈ t.names ∧ y ∈ t.names ∧ m ∈ t.titles ∧ CoActors t m.1 x.1 y.1 ∧ IsChain t kb y.1 ls

end NW.Imdb
