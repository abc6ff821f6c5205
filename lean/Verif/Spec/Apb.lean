import Verif.Base

/-! # Specification: statements executed for a list of edges -/

namespace NW.Spec

variable {E R : Type}

/-- For every position of `y` separately: the value there, updated with those of `es` that concern it, in their order. -/
def tally (pos : E → Nat) (op : R → E → R) (y : List R) (es : List E) : List R :=
  y.mapIdx fun i a => (es.filter fun e => pos e == i).foldl op a

end NW.Spec
