import Verif.Spec.Walk

/-! # Specification: weighted walks and least weights -/

namespace NW.Spec

variable {α : Type}

/-- A walk from `s` with its total weight; `wt` gives the weight of a stored entry `(target, attribute)`. -/
inductive WWalk (g : Rows α) (wt : Nat × α → Nat) (s : Nat) : Nat → Nat → Prop
  | nil : WWalk g wt s s 0
  | snoc {u x : Nat} {e : Nat × α} : WWalk g wt s u x → e ∈ g.getD u [] → WWalk g wt s e.1 (x + wt e)

/-- `x` is the least weight of a walk from `s` to `v`. -/
def IsLeast (g : Rows α) (wt : Nat × α → Nat) (s v x : Nat) : Prop := WWalk g wt s v x ∧ ∀ y, WWalk g wt s v y → x ≤ y

theorem IsLeast.unique {g : Rows α} {wt : Nat × α → Nat} {s v x y : Nat} (h : IsLeast g wt s v x) (h' : IsLeast g wt s v y) : x = y :=
  Nat.le_antisymm (h.2 _ h'.1) (h'.2 _ h.1)

theorem WWalk.reachable {g : Rows α} {wt : Nat × α → Nat} {s v x : Nat} (h : WWalk g wt s v x) : Reachable g s v := by
  induction h with
  | nil => exact ⟨0, .nil⟩
  | snoc _ he ih =>
    obtain ⟨k, hk⟩ := ih
    exact ⟨k + 1, .snoc hk (List.mem_map_of_mem he)⟩

theorem Reachable.wwalk {g : Rows α} (wt : Nat × α → Nat) {s v : Nat} (h : Reachable g s v) : ∃ x, WWalk g wt s v x := by
  obtain ⟨k, hk⟩ := h
  induction hk with
  | nil => exact ⟨0, .nil⟩
  | snoc _ he ih =>
    obtain ⟨x, hx⟩ := ih
    obtain ⟨e, h1, rfl⟩ := List.mem_map.1 he
    exact ⟨_, .snoc hx h1⟩

theorem Reachable.exists_least {g : Rows α} (wt : Nat × α → Nat) {s v : Nat} (h : Reachable g s v) : ∃ x, IsLeast g wt s v x := by
  obtain ⟨x, hx⟩ := h.wwalk wt
  induction x using Nat.strongRecOn with
  | ind x ih =>
    by_cases c : ∃ y, y < x ∧ WWalk g wt s v y
    · obtain ⟨y, hy, hw⟩ := c
      exact ih y hy hw
    · exact ⟨x, hx, fun y hy => Nat.le_of_not_lt fun hlt => c ⟨y, hlt, hy⟩⟩

/-- `d` holds the distances from `s`: the least weight where there is a walk, `inf` where there is none. -/
def Distances (g : Rows α) (wt : Nat × α → Nat) (s inf : Nat) (d : List Nat) : Prop :=
  d.length = g.length ∧ ∀ v, v < g.length →
    (∀ x, IsLeast g wt s v x → d[v]? = some x) ∧ (¬ Reachable g s v → d[v]? = some inf)

end NW.Spec
