import Verif.Spec.Walk

/-! # Specification: walks whose weights may be negative -/

namespace NW.Spec

variable {α : Type}

/-- A walk from `s` of `k` edges with its total weight; `wt` gives the weight of a stored entry `(target, attribute)`. -/
inductive SWalk (g : Rows α) (wt : Nat × α → Int) (s : Nat) : Nat → Nat → Int → Prop
  | nil : SWalk g wt s s 0 0
  | snoc {u k : Nat} {x : Int} {e : Nat × α} : SWalk g wt s u k x → e ∈ g.getD u [] → SWalk g wt s e.1 (k + 1) (x + wt e)

/-- `x` is the least weight of a walk from `s` to `v`. -/
def SLeast (g : Rows α) (wt : Nat × α → Int) (s v : Nat) (x : Int) : Prop := (∃ k, SWalk g wt s v k x) ∧ ∀ k y, SWalk g wt s v k y → x ≤ y

/-- Some cycle of negative weight can be reached from `s`. -/
def NegativeCycle (g : Rows α) (wt : Nat × α → Int) (s : Nat) : Prop := ∃ v k y, Reachable g s v ∧ SWalk g wt v v k y ∧ y < 0

/-- `d` holds the distances from `s`: the least weight where there is a walk, `inf` where there is none. -/
def SDistances (g : Rows α) (wt : Nat × α → Int) (s : Nat) (inf : Int) (d : List Int) : Prop :=
  d.length = g.length ∧ ∀ v, v < g.length → (Reachable g s v → ∃ x, SLeast g wt s v x ∧ d[v]? = some x) ∧ (¬ Reachable g s v → d[v]? = some inf)

end NW.Spec
