import Verif.Spec.Components
import Mathlib.Data.List.Perm.Subperm

/-! # Specification: spanning forests -/

namespace NW.Spec

/-- The relation given by a list of pairs. -/
def Pairs (l : List (Nat × Nat)) (a b : Nat) : Prop := (a, b) ∈ l

variable {W : Type}

/-- The endpoints of weighted edges. -/
def ends (l : List (Nat × Nat × W)) : List (Nat × Nat) := l.map fun e => (e.1, e.2.1)

/-- No edge lies on a cycle: leaving it out disconnects its endpoints. -/
def IsForest (l : List (Nat × Nat × W)) : Prop :=
  ∀ (i : Nat) (e : Nat × Nat × W), l[i]? = some e → ¬ Conn (Pairs (ends (l.eraseIdx i))) e.1 e.2.1

/-- `T` connects the same vertices as `E`. -/
def Spans (T E : List (Nat × Nat × W)) : Prop := ∀ x y, Conn (Pairs (ends T)) x y ↔ Conn (Pairs (ends E)) x y

/-- `T` consists of edges of `E`, each used at most as often as in `E`. -/
def SubEdges (T E : List (Nat × Nat × W)) : Prop := T.Subperm E

end NW.Spec
