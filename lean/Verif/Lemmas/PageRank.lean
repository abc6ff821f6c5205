import Verif.Spec.PageRank
import Mathlib.LinearAlgebra.FiniteDimensional.Basic
import Mathlib.Algebra.BigOperators.Group.Finset.Basic
import Mathlib.Algebra.Order.BigOperators.Group.Finset
import Mathlib.Data.Fintype.BigOperators
import Mathlib.Algebra.BigOperators.Fin
import Mathlib.Tactic.Linarith
import Mathlib.Tactic.Ring
import Mathlib.Tactic.FieldSimp
import Mathlib.Tactic.Positivity

/-!
# The PageRank equations have exactly one solution
-/

namespace NW.Spec

variable {α : Type}

/-- What arrives at `i`. -/
def arriving (g : Rows α) (deg : Nat → Nat) (x : Nat → ℚ) (i : Nat) : ℚ := ((nbrs g i).map fun j => x j / deg j).sum

theorem sum_rows (g : Rows α) (f : Nat → ℚ) : ∑ i ∈ Finset.range g.length, ((nbrs g i).map f).sum = ((g.flatten.map Prod.fst).map f).sum := by
  induction g with
  | nil => simp
  | cons r g ih =>
    rw [List.length_cons, Finset.sum_range_succ']
    have : ∀ i, nbrs (r :: g) (i + 1) = nbrs g i := fun i => by simp [nbrs]
    simp only [this, ih]
    rw [List.flatten_cons, List.map_append, List.map_append, List.sum_append, add_comm]
    rfl

theorem sum_count (l : List Nat) (n : Nat) (h : ∀ j ∈ l, j < n) (f : Nat → ℚ) : (l.map f).sum = ∑ j ∈ Finset.range n, (l.count j : ℚ) * f j := by
  induction l with
  | nil => simp
  | cons a l ih =>
    rw [List.map_cons, List.sum_cons, ih fun j hj => h j (by simp [hj])]
    have : ∀ j, (((a :: l).count j : Nat) : ℚ) * f j = (if j = a then f j else 0) + (l.count j : ℚ) * f j := by
      intro j
      rw [List.count_cons]
      by_cases c : j = a
      · subst c; simp; ring
      · simp [c, Ne.symm c]
    simp only [this]
    rw [Finset.sum_add_distrib, Finset.sum_ite_eq' (Finset.range n) a f, if_pos (Finset.mem_range.2 (h a (by simp)))]

theorem mem_flatten_lt {g : Rows α} (hg : InRange g) {j : Nat} (h : j ∈ g.flatten.map Prod.fst) : j < g.length := by
  obtain ⟨x, hx, rfl⟩ := List.mem_map.1 h
  obtain ⟨r, hr, hx⟩ := List.mem_flatten.1 hx
  exact (inRange_iff g).1 hg r hr x hx

/-- Nothing is created: what arrives everywhere is at most what is there. -/
theorem arriving_le (g : Rows α) (hg : InRange g) (deg : Nat → Nat) (hdeg : ∀ j, j < g.length → listed g j ≤ deg j) (x : Nat → ℚ) (hx : ∀ j, 0 ≤ x j) :
    ∑ i ∈ Finset.range g.length, arriving g deg x i ≤ ∑ j ∈ Finset.range g.length, x j := by
  unfold arriving
  rw [sum_rows, sum_count _ g.length fun j => mem_flatten_lt hg]
  refine Finset.sum_le_sum fun j hj => ?_
  have h1 : ((listed g j : Nat) : ℚ) ≤ deg j := by exact_mod_cast hdeg j (Finset.mem_range.1 hj)
  change ((listed g j : Nat) : ℚ) * (x j / deg j) ≤ x j
  rcases Nat.eq_zero_or_pos (deg j) with c | c
  · rw [c]; simpa using hx j
  · have hc : (0 : ℚ) < deg j := by exact_mod_cast c
    rw [mul_div_assoc', div_le_iff₀ hc, mul_comm]
    exact mul_le_mul_of_nonneg_left h1 (hx j)

theorem arriving_congr (g : Rows α) (hg : InRange g) (deg : Nat → Nat) {x y : Nat → ℚ} (h : ∀ j, j < g.length → x j = y j) (i : Nat) : arriving g deg x i = arriving g deg y i := by
  unfold arriving
  congr 1
  refine List.map_congr_left fun j hj => ?_
  rw [h j (hg i j hj)]

theorem arriving_add (g : Rows α) (deg : Nat → Nat) (x y : Nat → ℚ) (i : Nat) : arriving g deg (fun j => x j + y j) i = arriving g deg x i + arriving g deg y i := by
  unfold arriving
  induction nbrs g i with
  | nil => simp
  | cons a l ih => simp only [List.map_cons, List.sum_cons, ih]; ring

theorem arriving_smul (g : Rows α) (deg : Nat → Nat) (c : ℚ) (x : Nat → ℚ) (i : Nat) : arriving g deg (fun j => c * x j) i = c * arriving g deg x i := by
  unfold arriving
  induction nbrs g i with
  | nil => simp
  | cons a l ih => simp only [List.map_cons, List.sum_cons, ih]; ring

theorem arriving_mono (g : Rows α) (deg : Nat → Nat) {x y : Nat → ℚ} (h : ∀ j, x j ≤ y j) (i : Nat) : arriving g deg x i ≤ arriving g deg y i := by
  unfold arriving
  induction nbrs g i with
  | nil => simp
  | cons a l ih =>
    simp only [List.map_cons, List.sum_cons]
    exact add_le_add (div_le_div_of_nonneg_right (h a) (by positivity)) ih

theorem arriving_abs (g : Rows α) (deg : Nat → Nat) (x : Nat → ℚ) (i : Nat) : |arriving g deg x i| ≤ arriving g deg (fun j => |x j|) i := by
  rw [abs_le]
  constructor
  · have := arriving_mono g deg (x := fun j => (-1) * |x j|) (y := x) (fun j => by have := neg_abs_le (x j); linarith) i
    rw [arriving_smul] at this
    linarith
  · exact arriving_mono g deg (fun j => le_abs_self (x j)) i

/-- A vector that is at most its own damped image is zero. -/
theorem damped_zero (g : Rows α) (hg : InRange g) (deg : Nat → Nat) (hdeg : ∀ j, j < g.length → listed g j ≤ deg j) {d : ℚ} (h0 : 0 ≤ d) (h1 : d < 1) (x : Nat → ℚ)
    (hx : ∀ j, 0 ≤ x j) (h : ∀ i, i < g.length → x i ≤ d * arriving g deg x i) : ∀ i, i < g.length → x i = 0 := by
  have hs : ∑ j ∈ Finset.range g.length, x j ≤ d * ∑ j ∈ Finset.range g.length, x j := by
    calc ∑ j ∈ Finset.range g.length, x j ≤ ∑ i ∈ Finset.range g.length, d * arriving g deg x i := Finset.sum_le_sum fun i hi => h i (Finset.mem_range.1 hi)
      _ = d * ∑ i ∈ Finset.range g.length, arriving g deg x i := by rw [Finset.mul_sum]
      _ ≤ d * ∑ j ∈ Finset.range g.length, x j := mul_le_mul_of_nonneg_left (arriving_le g hg deg hdeg x hx) h0
  have hnn : 0 ≤ ∑ j ∈ Finset.range g.length, x j := Finset.sum_nonneg fun j _ => hx j
  have hz : ∑ j ∈ Finset.range g.length, x j = 0 := by nlinarith
  intro i hi
  exact (Finset.sum_eq_zero_iff_of_nonneg fun j _ => hx j).1 hz i (Finset.mem_range.2 hi)

/-- Extension by zero. -/
def ext {n : Nat} (x : Fin n → ℚ) (j : Nat) : ℚ := if h : j < n then x ⟨j, h⟩ else 0

theorem ext_lt {n : Nat} (x : Fin n → ℚ) {j : Nat} (h : j < n) : ext x j = x ⟨j, h⟩ := dif_pos h

/-- The map `x ↦ x - d A x`. -/
def op (g : Rows α) (deg : Nat → Nat) (d : ℚ) : (Fin g.length → ℚ) →ₗ[ℚ] (Fin g.length → ℚ) where
  toFun x i := x i - d * arriving g deg (ext x) i
  map_add' x y := by
    funext i
    have : ext (x + y) = fun j => ext x j + ext y j := by
      funext j; unfold ext; split <;> simp
    simp only [this, arriving_add, Pi.add_apply]; ring
  map_smul' c x := by
    funext i
    have : ext (c • x) = fun j => c * ext x j := by
      funext j; unfold ext; split <;> simp
    simp only [this, arriving_smul, Pi.smul_apply, smul_eq_mul, RingHom.id_apply]; ring

theorem op_injective (g : Rows α) (hg : InRange g) (deg : Nat → Nat) (hdeg : ∀ j, j < g.length → listed g j ≤ deg j) {d : ℚ} (h0 : 0 ≤ d) (h1 : d < 1) :
    Function.Injective (op g deg d) := by
  rw [injective_iff_map_eq_zero]
  intro x hx
  have hz := damped_zero g hg deg hdeg h0 h1 (fun j => |ext x j|) (fun j => abs_nonneg _) (fun i hi => by
    have := congrFun hx ⟨i, hi⟩
    simp only [op, LinearMap.coe_mk, AddHom.coe_mk, Pi.zero_apply] at this
    have e : ext x i = d * arriving g deg (ext x) i := by rw [ext_lt x hi]; linarith
    change |ext x i| ≤ _
    rw [e, abs_mul, abs_of_nonneg h0]
    exact mul_le_mul_of_nonneg_left (arriving_abs g deg (ext x) i) h0)
  funext i
  have := hz i i.2
  rw [abs_eq_zero, ext_lt x i.2] at this
  exact this

/-- The solution exists. -/
theorem exists_pageRank (g : Rows α) (hg : InRange g) (deg : Nat → Nat) (hdeg : ∀ j, j < g.length → listed g j ≤ deg j) {d : ℚ} (h0 : 0 ≤ d) (h1 : d < 1) :
    ∃ p, IsPageRank g deg d p := by
  obtain ⟨x, hx⟩ := LinearMap.injective_iff_surjective.1 (op_injective g hg deg hdeg h0 h1) fun _ => (1 - d) / g.length
  refine ⟨ext x, ?_⟩
  intro i hi
  have := congrFun hx ⟨i, hi⟩
  simp only [op, LinearMap.coe_mk, AddHom.coe_mk] at this
  rw [ext_lt x hi]
  unfold arriving at this
  linarith

/-- Two solutions agree. -/
theorem pageRank_unique (g : Rows α) (hg : InRange g) (deg : Nat → Nat) (hdeg : ∀ j, j < g.length → listed g j ≤ deg j) {d : ℚ} (h0 : 0 ≤ d) (h1 : d < 1) {p q : Nat → ℚ}
    (hp : IsPageRank g deg d p) (hq : IsPageRank g deg d q) : ∀ i, i < g.length → p i = q i := by
  have hz := damped_zero g hg deg hdeg h0 h1 (fun j => |p j + (-1) * q j|) (fun j => abs_nonneg _) (fun i hi => by
    have e : p i + (-1) * q i = d * arriving g deg (fun j => p j + (-1) * q j) i := by
      rw [arriving_add, arriving_smul, hp i hi, hq i hi]; unfold arriving; ring
    change |p i + (-1) * q i| ≤ _
    rw [e, abs_mul, abs_of_nonneg h0]
    exact mul_le_mul_of_nonneg_left (arriving_abs g deg _ i) h0)
  intro i hi
  have := hz i hi
  rw [abs_eq_zero] at this
  linarith

/-- The solution is between `(1 - d) / n` and 1. -/
theorem pageRank_bounds (g : Rows α) (hg : InRange g) (deg : Nat → Nat) (hdeg : ∀ j, j < g.length → listed g j ≤ deg j) {d : ℚ} (h0 : 0 ≤ d) (h1 : d < 1) {p : Nat → ℚ}
    (hp : IsPageRank g deg d p) : ∀ i, i < g.length → (1 - d) / g.length ≤ p i ∧ p i ≤ 1 := by
  have hb : ∀ i, i < g.length → (0 : ℚ) < (1 - d) / g.length := by
    intro i hi
    have : (0 : ℚ) < g.length := by exact_mod_cast (by omega : 0 < g.length)
    exact div_pos (by linarith) this
  have hneg := damped_zero g hg deg hdeg h0 h1 (fun j => max (-p j) 0) (fun j => le_max_right _ _) (fun i hi => by
    have h2 : arriving g deg (fun j => (-1) * max (-p j) 0) i ≤ arriving g deg p i :=
      arriving_mono g deg (fun j => by have := le_max_left (-p j) 0; linarith) i
    rw [arriving_smul] at h2
    have h3 : 0 ≤ arriving g deg (fun j => max (-p j) 0) i := by
      have := arriving_mono g deg (x := fun j => 0 * p j) (y := fun j => max (-p j) 0) (fun j => by simp) i
      rw [arriving_smul] at this; linarith
    have e := hp i hi
    refine max_le ?_ (mul_nonneg h0 h3)
    have := hb i hi
    change p i = _ + d * arriving g deg p i at e
    have := mul_le_mul_of_nonneg_left h2 h0
    rw [e]; linarith)
  have hpos : ∀ i, i < g.length → 0 ≤ p i := by
    intro i hi
    have := hneg i hi
    have := le_max_left (-p i) 0
    linarith
  have harr : ∀ i, 0 ≤ arriving g deg (fun j => if j < g.length then p j else 0) i := by
    intro i
    have := arriving_mono g deg (x := fun j => 0 * p j) (y := fun j => if j < g.length then p j else 0) (fun j => by
      rw [zero_mul]; split
      · exact hpos j (by assumption)
      · exact le_refl _) i
    rw [arriving_smul] at this; linarith
  have hcongr : ∀ i, arriving g deg p i = arriving g deg (fun j => if j < g.length then p j else 0) i := fun i => arriving_congr g hg deg (fun j hj => by rw [if_pos hj]) i
  have hsum : ∑ i ∈ Finset.range g.length, p i ≤ 1 := by
    rcases Nat.eq_zero_or_pos g.length with c | c
    · rw [c]; simp
    have hc : (0 : ℚ) < g.length := by exact_mod_cast c
    have e1 : ∑ i ∈ Finset.range g.length, p i = ∑ i ∈ Finset.range g.length, ((1 - d) / g.length + d * arriving g deg (fun j => if j < g.length then p j else 0) i) :=
      Finset.sum_congr rfl fun i hi => by rw [← hcongr]; exact hp i (Finset.mem_range.1 hi)
    have e2 := arriving_le g hg deg hdeg (fun j => if j < g.length then p j else 0) (fun j => by
      split
      · exact hpos j (by assumption)
      · exact le_refl _)
    have e3 : ∑ j ∈ Finset.range g.length, (if j < g.length then p j else 0) = ∑ j ∈ Finset.range g.length, p j :=
      Finset.sum_congr rfl fun j hj => by rw [if_pos (Finset.mem_range.1 hj)]
    rw [Finset.sum_add_distrib, ← Finset.mul_sum, Finset.sum_const, Finset.card_range, nsmul_eq_mul, mul_div_cancel₀ _ (ne_of_gt hc)] at e1
    rw [e3] at e2
    have := mul_le_mul_of_nonneg_left e2 h0
    nlinarith
  intro i hi
  constructor
  · have e := hp i hi
    change p i = _ + d * arriving g deg p i at e
    rw [e, hcongr]
    have := mul_nonneg h0 (harr i)
    linarith
  · exact le_trans (Finset.single_le_sum (f := p) (fun j hj => hpos j (Finset.mem_range.1 hj)) (Finset.mem_range.2 hi)) hsum

end NW.Spec
