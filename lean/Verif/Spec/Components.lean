import Verif.Spec.Walk

/-! # Specification: connected components -/

namespace NW.Spec

/-- `x` and `y` are connected by `R`-steps, used in either direction. -/
inductive Conn (R : Nat → Nat → Prop) : Nat → Nat → Prop
  | refl (x : Nat) : Conn R x x
  | fwd {x y z : Nat} : Conn R x y → R y z → Conn R x z
  | bwd {x y z : Nat} : Conn R x y → R z y → Conn R x z

variable {R R' : Nat → Nat → Prop}

theorem Conn.trans {x y z : Nat} (h : Conn R x y) (h' : Conn R y z) : Conn R x z := by
  induction h' with
  | refl => exact h
  | fwd _ hr ih => exact .fwd ih hr
  | bwd _ hr ih => exact .bwd ih hr

theorem Conn.of {x y : Nat} (h : R x y) : Conn R x y := .fwd (.refl x) h

theorem Conn.symm {x y : Nat} (h : Conn R x y) : Conn R y x := by
  induction h with
  | refl => exact .refl _
  | fwd _ hr ih => exact Conn.trans (.bwd (.refl _) hr) ih
  | bwd _ hr ih => exact Conn.trans (.fwd (.refl _) hr) ih

theorem Conn.lift {x y : Nat} (h : Conn R x y) (hR : ∀ a b, R a b → Conn R' a b) : Conn R' x y := by
  induction h with
  | refl => exact .refl _
  | fwd _ hr ih => exact ih.trans (hR _ _ hr)
  | bwd _ hr ih => exact ih.trans (hR _ _ hr).symm

/-- A connected relation lets any function constant along its steps be constant. -/
theorem Conn.const {β : Type} {x y : Nat} (h : Conn R x y) (f : Nat → β) (hf : ∀ a b, R a b → f a = f b) : f x = f y := by
  induction h with
  | refl => rfl
  | fwd _ hr ih => exact ih.trans (hf _ _ hr)
  | bwd _ hr ih => exact ih.trans (hf _ _ hr).symm

/-- `comp` labels each vertex below `n` with the least vertex connected to it. -/
def LeastLabels (R : Nat → Nat → Prop) (n : Nat) (comp : List Nat) : Prop :=
  ∀ x, x < n → ∃ l, comp[x]? = some l ∧ Conn R x l ∧ ∀ y, Conn R x y → l ≤ y

/-- `comp` gives two vertices below `n` the same label exactly when they are connected. -/
def ComponentLabels (R : Nat → Nat → Prop) (n : Nat) (comp : List Nat) : Prop :=
  n ≤ comp.length ∧ ∀ x y, x < n → y < n → (comp[x]? = comp[y]? ↔ Conn R x y)

theorem LeastLabels.components {n : Nat} {comp : List Nat} (h : LeastLabels R n comp) : ComponentLabels R n comp := by
  constructor
  · rcases Nat.lt_or_ge comp.length n with c | c
    · obtain ⟨l, hl, -⟩ := h comp.length c
      rw [List.getElem?_eq_none (Nat.le_refl _)] at hl
      cases hl
    · exact c
  · intro x y hx hy
    obtain ⟨l, h1, h2, h3⟩ := h x hx
    obtain ⟨m, k1, k2, k3⟩ := h y hy
    rw [h1, k1]
    constructor
    · intro he
      cases he
      exact h2.trans k2.symm
    · intro hc
      have a := h3 m (hc.trans k2)
      have b := k3 l (hc.symm.trans h2)
      rw [Nat.le_antisymm a b]

end NW.Spec
