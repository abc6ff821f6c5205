import Verif.Spec.Components
import Mathlib.Tactic.Common

/-! # Lemmas: forests given by pointers to smaller vertices -/

namespace NW.Forest
open Spec

/-- Follow the pointers until they stop decreasing. -/
def root (f : Nat → Nat) (x : Nat) : Nat := if _h : f x < x then root f (f x) else x
termination_by x

variable {f f' : Nat → Nat}

theorem root_of_fix {x : Nat} (h : f x = x) : root f x = x := by rw [root, dif_neg (by omega)]

theorem root_of_lt {x : Nat} (h : f x < x) : root f x = root f (f x) := by rw [root, dif_pos h]

theorem root_le (f : Nat → Nat) (x : Nat) : root f x ≤ x := by
  induction x using Nat.strongRecOn with
  | ind x ih =>
    rw [root]
    split
    · next h => exact Nat.le_trans (ih _ h) (Nat.le_of_lt h)
    · exact Nat.le_refl _

theorem root_fix (hle : ∀ x, f x ≤ x) (x : Nat) : f (root f x) = root f x := by
  induction x using Nat.strongRecOn with
  | ind x ih =>
    by_cases h : f x < x
    · rw [root_of_lt h]; exact ih _ h
    · have : f x = x := by have := hle x; omega
      rw [root_of_fix this, this]

theorem root_step (hle : ∀ x, f x ≤ x) (x : Nat) : root f (f x) = root f x := by
  by_cases h : f x < x
  · rw [root_of_lt h]
  · have : f x = x := by have := hle x; omega
    rw [this]

/-- Hooking the root `h` below a smaller vertex `l`. -/
theorem root_link (hle : ∀ x, f x ≤ x) {h l : Nat} (hh : f h = h) (hl : l < h) (hf' : ∀ x, f' x = if x = h then l else f x) (x : Nat) :
    root f' x = if root f x = h then root f l else root f x := by
  have hlow : ∀ x, x < h → root f' x = root f x := by
    intro x
    induction x using Nat.strongRecOn with
    | ind x ih =>
      intro hx
      have e : f' x = f x := by rw [hf', if_neg (by omega)]
      by_cases c : f x < x
      · rw [root_of_lt c, root_of_lt (by rw [e]; exact c), e]; exact ih _ c (by omega)
      · have : f x = x := by have := hle x; omega
        rw [root_of_fix this, root_of_fix (by rw [e]; exact this)]
  induction x using Nat.strongRecOn with
  | ind x ih =>
    by_cases hx : x = h
    · subst hx
      have e : f' x = l := by rw [hf', if_pos rfl]
      rw [root_of_fix hh, if_pos rfl, root_of_lt (by rw [e]; exact hl), e, hlow _ hl]
    · have e : f' x = f x := by rw [hf', if_neg hx]
      by_cases c : f x < x
      · rw [root_of_lt (f := f') (by rw [e]; exact c), root_of_lt (f := f) c, e]; exact ih _ c
      · have k : f x = x := by have := hle x; omega
        rw [root_of_fix (f := f) k, root_of_fix (f := f') (by rw [e]; exact k), if_neg hx]

/-- Redirecting a vertex that is not a root to a smaller vertex of its tree. -/
theorem root_redirect (hle : ∀ x, f x ≤ x) {n b : Nat} (hn : f n < n) (hb : b < n) (hr : root f b = root f n)
    (hf' : ∀ x, f' x = if x = n then b else f x) (x : Nat) : root f' x = root f x := by
  have hlow : ∀ x, x < n → root f' x = root f x := by
    intro x
    induction x using Nat.strongRecOn with
    | ind x ih =>
      intro hx
      have e : f' x = f x := by rw [hf', if_neg (by omega)]
      by_cases c : f x < x
      · rw [root_of_lt c, root_of_lt (by rw [e]; exact c), e]; exact ih _ c (by omega)
      · have : f x = x := by have := hle x; omega
        rw [root_of_fix this, root_of_fix (by rw [e]; exact this)]
  induction x using Nat.strongRecOn with
  | ind x ih =>
    by_cases hx : x = n
    · subst hx
      have e : f' x = b := by rw [hf', if_pos rfl]
      rw [root_of_lt (f := f') (by rw [e]; exact hb), e, hlow _ hb, hr]
    · have e : f' x = f x := by rw [hf', if_neg hx]
      by_cases c : f x < x
      · rw [root_of_lt (f := f') (by rw [e]; exact c), root_of_lt (f := f) c, e]; exact ih _ c
      · have k : f x = x := by have := hle x; omega
        rw [root_of_fix (f := f) k, root_of_fix (f := f') (by rw [e]; exact k)]

theorem conn_root {E : Nat → Nat → Prop} (h : ∀ x, Conn E x (f x)) (x : Nat) : Conn E x (root f x) := by
  induction x using Nat.strongRecOn with
  | ind x ih =>
    rw [root]
    split
    · next c => exact (h x).trans (ih _ c)
    · exact .refl _

/-- Two vertices are connected by pointers iff they have the same root. -/
theorem conn_iff_root (hle : ∀ x, f x ≤ x) {R : Nat → Nat → Prop} (hR : ∀ a b, R a b → f a = b) (hR' : ∀ x, R x (f x) ∨ f x = x) (x y : Nat) :
    Conn R x y ↔ root f x = root f y := by
  constructor
  · intro h
    refine h.const (root f) fun a b hab => ?_
    rw [← hR a b hab, root_step hle]
  · intro h
    have hc : ∀ x, Conn R x (f x) := by
      intro x
      rcases hR' x with k | k
      · exact .of k
      · rw [k]; exact .refl _
    exact (conn_root hc x).trans (h ▸ (conn_root hc y).symm)

/-- Doubly stepping pointers with a fixed point after one step: the pointer is the root. -/
theorem root_eq_of_fix (hle : ∀ x, f x ≤ x) {x : Nat} (h : f (f x) = f x) : root f x = f x := by
  rw [← root_step hle, root_of_fix h]

end NW.Forest
