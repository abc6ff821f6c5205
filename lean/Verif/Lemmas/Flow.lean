import Verif.Spec.Flow
import Mathlib.Algebra.Order.BigOperators.Group.Finset
import Mathlib.Tactic.Linarith
import Mathlib.Tactic.Ring

/-!
# Cuts and augmentation
-/

namespace NW.Spec

variable {R : Type} [CommRing R] [LinearOrder R] [IsStrictOrderedRing R]

omit [LinearOrder R] [IsStrictOrderedRing R] in
/-- The excess of a set of vertices. -/
theorem sum_excess (n : Nat) (f : Nat → Nat → R) (S : Finset Nat) (hS : S ⊆ Finset.range n) :
    ∑ v ∈ S, excess n f v = ∑ v ∈ S, ∑ u ∈ Finset.range n \ S, f v u - ∑ v ∈ S, ∑ u ∈ Finset.range n \ S, f u v := by
  unfold excess
  have split : ∀ h : Nat → R, ∑ u ∈ Finset.range n, h u = ∑ u ∈ Finset.range n \ S, h u + ∑ u ∈ S, h u := fun h => (Finset.sum_sdiff hS).symm
  rw [Finset.sum_sub_distrib]
  have e1 : ∑ v ∈ S, ∑ u ∈ Finset.range n, f v u = ∑ v ∈ S, ∑ u ∈ Finset.range n \ S, f v u + ∑ v ∈ S, ∑ u ∈ S, f v u := by
    rw [← Finset.sum_add_distrib]; exact Finset.sum_congr rfl fun v _ => split _
  have e2 : ∑ v ∈ S, ∑ u ∈ Finset.range n, f u v = ∑ v ∈ S, ∑ u ∈ Finset.range n \ S, f u v + ∑ v ∈ S, ∑ u ∈ S, f u v := by
    rw [← Finset.sum_add_distrib]; exact Finset.sum_congr rfl fun v _ => split _
  have e3 : ∑ v ∈ S, ∑ u ∈ S, f v u = ∑ v ∈ S, ∑ u ∈ S, f u v := Finset.sum_comm
  rw [e1, e2, e3]; ring

omit [IsStrictOrderedRing R] in
/-- The value of a flow is what crosses a cut. -/
theorem value_eq_cut {n : Nat} {c : Nat → Nat → R} {s t : Nat} {f : Nat → Nat → R} (hf : IsFlow n c s t f) (S : Finset Nat) (hS : S ⊆ Finset.range n) (hs : s ∈ S) (ht : t ∉ S) :
    excess n f s = ∑ v ∈ S, ∑ u ∈ Finset.range n \ S, f v u - ∑ v ∈ S, ∑ u ∈ Finset.range n \ S, f u v := by
  rw [← sum_excess n f S hS]
  refine (Finset.sum_eq_single_of_mem s hs fun v hv hne => ?_).symm
  exact hf.conserved v (Finset.mem_range.1 (hS hv)) hne (fun e => ht (e ▸ hv))

/-- A flow without residual capacity across a cut is a maximum flow. -/
theorem isMaxFlow_of_cut {n : Nat} {c : Nat → Nat → R} {s t : Nat} {f : Nat → Nat → R} (hf : IsFlow n c s t f) (S : Finset Nat) (hS : S ⊆ Finset.range n) (hs : s ∈ S) (ht : t ∉ S)
    (hcut : ∀ u v, u ∈ S → v < n → v ∉ S → c u v - f u v + f v u ≤ 0) : IsMaxFlow n c s t f := by
  refine ⟨hf, fun f' hf' => ?_⟩
  rw [value_eq_cut hf S hS hs ht, value_eq_cut hf' S hS hs ht]
  have h1 : ∑ v ∈ S, ∑ u ∈ Finset.range n \ S, f' v u ≤ ∑ v ∈ S, ∑ u ∈ Finset.range n \ S, f v u := by
    refine Finset.sum_le_sum fun v hv => Finset.sum_le_sum fun u hu => ?_
    obtain ⟨hu1, hu2⟩ := Finset.mem_sdiff.1 hu
    have hvn := Finset.mem_range.1 (hS hv)
    have hun := Finset.mem_range.1 hu1
    linarith [hcut v u hv hun hu2, hf.nonneg u v hun hvn, hf'.le v u hvn hun]
  have h2 : ∑ v ∈ S, ∑ u ∈ Finset.range n \ S, f u v ≤ ∑ v ∈ S, ∑ u ∈ Finset.range n \ S, f' u v := by
    refine Finset.sum_le_sum fun v hv => Finset.sum_le_sum fun u hu => ?_
    obtain ⟨hu1, hu2⟩ := Finset.mem_sdiff.1 hu
    have hvn := Finset.mem_range.1 (hS hv)
    have hun := Finset.mem_range.1 hu1
    linarith [hcut v u hv hun hu2, hf.le v u hvn hun, hf'.nonneg u v hun hvn]
  linarith

/-- The value of a flow is at most the capacity of the arcs leaving the source. -/
theorem value_le_source {n : Nat} {c : Nat → Nat → R} {s t : Nat} {f : Nat → Nat → R} (hf : IsFlow n c s t f) (hs : s < n) : excess n f s ≤ ∑ u ∈ Finset.range n, c s u := by
  unfold excess
  have h1 : ∑ u ∈ Finset.range n, f s u ≤ ∑ u ∈ Finset.range n, c s u := Finset.sum_le_sum fun u hu => hf.le s u hs (Finset.mem_range.1 hu)
  have h2 : 0 ≤ ∑ u ∈ Finset.range n, f u s := Finset.sum_nonneg fun u hu => hf.nonneg u s (Finset.mem_range.1 hu) hs
  linarith

omit [LinearOrder R] [IsStrictOrderedRing R] in
theorem excess_eq_net (n : Nat) (f : Nat → Nat → R) (v : Nat) : excess n f v = ∑ u ∈ Finset.range n, (f v u - f u v) := by
  unfold excess; rw [Finset.sum_sub_distrib]

/-- The effect of sending `m` from `a` to `b`. -/
theorem excess_push {n : Nat} {f f' : Nat → Nat → R} {a b : Nat} {m : R} (ha : a < n) (hb : b < n) (hab : a ≠ b)
    (h : f' a b - f' b a = f a b - f b a + m) (hother : ∀ u v, ¬ (u = a ∧ v = b) → ¬ (u = b ∧ v = a) → f' u v = f u v) (v : Nat) :
    excess n f' v = excess n f v + (if v = a then m else 0) - (if v = b then m else 0) := by
  rw [excess_eq_net, excess_eq_net]
  by_cases c1 : v = a
  · subst c1
    rw [if_pos rfl, if_neg hab, ← Finset.add_sum_erase _ _ (Finset.mem_range.2 hb), ← Finset.add_sum_erase (a := b) _ (fun u => f v u - f u v) (Finset.mem_range.2 hb), h]
    have : ∑ x ∈ (Finset.range n).erase b, (f' v x - f' x v) = ∑ x ∈ (Finset.range n).erase b, (f v x - f x v) := by
      refine Finset.sum_congr rfl fun x hx => ?_
      have hx := (Finset.mem_erase.1 hx).1
      rw [hother v x (fun h => hx h.2) (fun h => hab h.1), hother x v (fun h => hab h.2) (fun h => hx h.1)]
    rw [this]; ring
  · by_cases c2 : v = b
    · subst c2
      rw [if_neg c1, if_pos rfl, ← Finset.add_sum_erase _ _ (Finset.mem_range.2 ha), ← Finset.add_sum_erase (a := a) _ (fun u => f v u - f u v) (Finset.mem_range.2 ha)]
      have : ∑ x ∈ (Finset.range n).erase a, (f' v x - f' x v) = ∑ x ∈ (Finset.range n).erase a, (f v x - f x v) := by
        refine Finset.sum_congr rfl fun x hx => ?_
        have hx := (Finset.mem_erase.1 hx).1
        rw [hother v x (fun h => c1 h.1) (fun h => hx h.2), hother x v (fun h => hx h.1) (fun h => c1 h.2)]
      rw [this]
      have : f' v a - f' a v = f v a - f a v - m := by linarith
      rw [this]; ring
    · rw [if_neg c1, if_neg c2]
      have : ∑ x ∈ Finset.range n, (f' v x - f' x v) = ∑ x ∈ Finset.range n, (f v x - f x v) := by
        refine Finset.sum_congr rfl fun x _ => ?_
        rw [hother v x (fun h => c1 h.1) (fun h => c2 h.1), hother x v (fun h => c2 h.2) (fun h => c1 h.2)]
      rw [this]; ring

end NW.Spec
