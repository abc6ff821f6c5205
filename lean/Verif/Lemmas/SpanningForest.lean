import Verif.Lemmas.Dsu
import Mathlib.Data.Finset.Card
import Mathlib.Data.Finset.Image
import Mathlib.Data.List.Forall2
import Mathlib.Algebra.Order.BigOperators.Group.List
import Mathlib.Data.Finset.Range
import Mathlib.Tactic.Choose
import Mathlib.Data.Nat.Find

/-! Facts on forests: their number of edges is determined by what they connect, and thresholds determine minimality. -/

namespace NW.Dsu
open Spec

variable {W : Type}

theorem isForest_iff {l : List (Nat × Nat × W)} :
    IsForest l ↔ ∀ pre e post, l = pre ++ e :: post → ¬ Conn (Pairs (ends (pre ++ post))) e.1 e.2.1 := by
  constructor
  · rintro h pre e post rfl
    have := h pre.length e (by simp)
    rwa [List.eraseIdx_append_of_length_le (Nat.le_refl _), Nat.sub_self, List.eraseIdx_zero] at this
  · intro h i e he
    obtain ⟨hi, hg⟩ := List.getElem?_eq_some_iff.1 he
    have := h (l.take i) e (l.drop (i + 1)) (by rw [← hg, ← List.drop_eq_getElem_cons hi, List.take_append_drop])
    rwa [List.eraseIdx_eq_take_drop_succ]

theorem _root_.NW.Spec.IsForest.sublist {l l' : List (Nat × Nat × W)} (h : IsForest l) (hs : l'.Sublist l) : IsForest l' := by
  rw [isForest_iff] at h ⊢
  rintro pre e post rfl
  obtain ⟨r1, r2, rfl, h1, h2⟩ := List.append_sublist_iff.1 hs
  obtain ⟨r3, r4, rfl, h3, h4⟩ := List.cons_sublist_iff.1 h2
  obtain ⟨a, b, rfl⟩ := List.append_of_mem h3
  intro hc
  refine h (r1 ++ a) e (b ++ r4) (by simp) (conn_mono ?_ hc)
  intro p hp
  obtain ⟨q, hq, rfl⟩ := List.mem_map.1 hp
  refine List.mem_map.2 ⟨q, ?_, rfl⟩
  rcases List.mem_append.1 hq with hq | hq
  · simp [h1.subset hq]
  · simp [h4.subset hq]

theorem _root_.NW.Spec.IsForest.perm {l l' : List (Nat × Nat × W)} (h : IsForest l) (hp : l.Perm l') : IsForest l' := by
  rw [isForest_iff] at h ⊢
  rintro pre e post rfl
  obtain ⟨a, b, rfl⟩ := List.append_of_mem (hp.symm.subset (by simp : e ∈ pre ++ e :: post))
  have hperm : (a ++ b).Perm (pre ++ post) :=
    List.Perm.cons_inv ((List.perm_middle.symm.trans hp).trans List.perm_middle)
  intro hc
  refine h a e b rfl (conn_mono ?_ hc)
  intro p hp'
  obtain ⟨q, hq, rfl⟩ := List.mem_map.1 hp'
  exact List.mem_map.2 ⟨q, hperm.symm.subset hq, rfl⟩

theorem ends_append (l l' : List (Nat × Nat × W)) : ends (l ++ l') = ends l ++ ends l' := by simp [ends]

/-- Adding an edge between two components gives a forest. -/
theorem _root_.NW.Spec.IsForest.append {l : List (Nat × Nat × W)} (h : IsForest l) {e : Nat × Nat × W} (he : ¬ Conn (Pairs (ends l)) e.1 e.2.1) : IsForest (l ++ [e]) := by
  rw [isForest_iff] at h ⊢
  intro pre f post hl
  rcases List.eq_nil_or_concat post with rfl | ⟨post', g, rfl⟩
  · have := List.append_inj' hl rfl
    obtain ⟨rfl, h2⟩ := this
    cases h2
    rw [List.append_nil]; exact he
  · rw [List.concat_eq_append] at hl ⊢
    have hl' : l ++ [e] = (pre ++ f :: post') ++ [g] := by rw [hl]; simp
    obtain ⟨rfl, h2⟩ := List.append_inj' hl' rfl
    cases h2
    intro hc
    rw [← List.append_assoc, ends_append] at hc
    have hf := h pre f post' rfl
    have hsub : ∀ {x y}, Conn (Pairs (ends (pre ++ post'))) x y → Conn (Pairs (ends (pre ++ f :: post'))) x y := by
      intro x y hxy
      refine conn_mono ?_ hxy
      intro p hp
      obtain ⟨q, hq, rfl⟩ := List.mem_map.1 hp
      refine List.mem_map.2 ⟨q, ?_, rfl⟩
      rcases List.mem_append.1 hq with hq | hq <;> simp [hq]
    have hff : Conn (Pairs (ends (pre ++ f :: post'))) f.1 f.2.1 := Conn.of (List.mem_map.2 ⟨f, by simp, rfl⟩)
    rcases conn_add hc with hc | ⟨h1, h2⟩ | ⟨h1, h2⟩
    · exact hf hc
    · exact he (((hsub h1).symm.trans hff).trans (hsub h2).symm)
    · exact he (((hsub h2).trans hff.symm).trans (hsub h1))

theorem isForest_last {l : List (Nat × Nat × W)} {e : Nat × Nat × W} (h : IsForest (l ++ [e])) : ¬ Conn (Pairs (ends l)) e.1 e.2.1 := by
  have := isForest_iff.1 h l e [] rfl
  rwa [List.append_nil] at this

/-! ## Counting components -/

open Classical in
/-- The least vertex connected to `x`. -/
noncomputable def least (l : List (Nat × Nat)) (x : Nat) : Nat := Nat.find (p := fun y => Conn (Pairs l) x y) ⟨x, .refl x⟩

theorem least_conn (l : List (Nat × Nat)) (x : Nat) : Conn (Pairs l) x (least l x) := by
  classical
  exact Nat.find_spec (p := fun y => Conn (Pairs l) x y) ⟨x, .refl x⟩

theorem least_le {l : List (Nat × Nat)} {x y : Nat} (h : Conn (Pairs l) x y) : least l x ≤ y := by
  classical
  exact Nat.find_min' (p := fun y => Conn (Pairs l) x y) ⟨x, .refl x⟩ h

theorem least_eq {l : List (Nat × Nat)} {x z : Nat} (h : Conn (Pairs l) x z) (hz : ∀ y, Conn (Pairs l) x y → z ≤ y) : least l x = z :=
  Nat.le_antisymm (least_le h) (hz _ (least_conn l x))

theorem least_congr {l : List (Nat × Nat)} {x y : Nat} (h : Conn (Pairs l) x y) : least l x = least l y :=
  least_eq (h.trans (least_conn l y)) fun _ hz => least_le (h.symm.trans hz)

theorem conn_of_least {l : List (Nat × Nat)} {x y : Nat} (h : least l x = least l y) : Conn (Pairs l) x y :=
  (least_conn l x).trans (h ▸ (least_conn l y).symm)

/-- The number of components among the first `n` vertices. -/
noncomputable def classes (l : List (Nat × Nat)) (n : Nat) : Nat := ((Finset.range n).image (least l)).card

theorem classes_mono {l l' : List (Nat × Nat)} (h : ∀ x y, Conn (Pairs l) x y → Conn (Pairs l') x y) (n : Nat) : classes l' n ≤ classes l n := by
  unfold classes
  have : (Finset.range n).image (least l') = ((Finset.range n).image (least l)).image (least l') := by
    rw [Finset.image_image]
    congr 1
    funext x
    exact least_congr (h _ _ (least_conn l x))
  rw [this]
  exact Finset.card_image_le

theorem classes_add {l : List (Nat × Nat)} {u v n : Nat} (hu : u < n) (hv : v < n) (h : ¬ Conn (Pairs l) u v) :
    classes (l ++ [(u, v)]) n + 1 = classes l n := by
  have hne : least l u ≠ least l v := fun e => h (conn_of_least e)
  have hsub : ∀ {x y}, Conn (Pairs l) x y → Conn (Pairs (l ++ [(u, v)])) x y := conn_mono fun e he => List.mem_append_left _ he
  have huv : Conn (Pairs (l ++ [(u, v)])) u v := Conn.of (List.mem_append_right _ (by simp))
  -- the component that is absorbed, and the one that absorbs
  obtain ⟨a, b, hab, ha, hb, hle, hxy⟩ : ∃ a b, Conn (Pairs (l ++ [(u, v)])) a b ∧ a < n ∧ b < n ∧ least l a < least l b ∧
      ((a = u ∧ b = v) ∨ (a = v ∧ b = u)) := by
    rcases Nat.lt_or_gt_of_ne hne with c | c
    · exact ⟨u, v, huv, hu, hv, c, Or.inl ⟨rfl, rfl⟩⟩
    · exact ⟨v, u, huv.symm, hv, hu, c, Or.inr ⟨rfl, rfl⟩⟩
  have hadd : ∀ {x y}, Conn (Pairs (l ++ [(u, v)])) x y →
      Conn (Pairs l) x y ∨ ((Conn (Pairs l) x a ∨ Conn (Pairs l) x b) ∧ (Conn (Pairs l) a y ∨ Conn (Pairs l) b y)) := by
    intro x y hc
    rcases hxy with ⟨rfl, rfl⟩ | ⟨rfl, rfl⟩ <;> rcases conn_add hc with h1 | ⟨h1, h2⟩ | ⟨h1, h2⟩ <;> simp [*]
  have key : ∀ x, least (l ++ [(u, v)]) x = if least l x = least l b then least l a else least l x := by
    intro x
    split
    · rename_i hx
      have hxb := conn_of_least hx
      refine least_eq (((hsub hxb).trans hab.symm).trans (hsub (least_conn l a))) ?_
      intro y hy
      rcases hadd hy with h1 | ⟨-, h1 | h1⟩
      · have := least_le (hxb.symm.trans h1); omega
      · exact least_le h1
      · have := least_le h1; omega
    · rename_i hx
      refine least_eq (hsub (least_conn l x)) ?_
      intro y hy
      rcases hadd hy with h1 | ⟨h0 | h0, h1⟩
      · exact least_le h1
      · rw [least_congr h0]
        rcases h1 with h1 | h1
        · exact least_le h1
        · have := least_le h1; omega
      · exact absurd (least_congr h0) hx
  unfold classes
  have himg : (Finset.range n).image (least (l ++ [(u, v)])) = ((Finset.range n).image (least l)).erase (least l b) := by
    ext z
    simp only [Finset.mem_image, Finset.mem_range, Finset.mem_erase]
    constructor
    · rintro ⟨x, hx, rfl⟩
      rw [key]
      split
      · exact ⟨by omega, a, ha, rfl⟩
      · rename_i hne
        exact ⟨hne, x, hx, rfl⟩
    · rintro ⟨hz, x, hx, rfl⟩
      exact ⟨x, hx, by rw [key, if_neg hz]⟩
  rw [himg]
  exact Finset.card_erase_add_one (Finset.mem_image.2 ⟨b, Finset.mem_range.2 hb, rfl⟩)

theorem _root_.NW.Spec.IsForest.count {l : List (Nat × Nat × W)} (h : IsForest l) {n : Nat} (hn : ∀ e ∈ l, e.1 < n ∧ e.2.1 < n) :
    classes (ends l) n + l.length = n := by
  induction l using List.reverseRecOn with
  | nil =>
    have : (Finset.range n).image (least (ends ([] : List (Nat × Nat × W)))) = Finset.range n := by
      have : least (ends ([] : List (Nat × Nat × W))) = id := by
        funext x
        refine least_eq (.refl x) ?_
        intro y hy
        exact Nat.le_of_eq (hy.const (fun z => z) fun a b hab => by simp [ends, Pairs] at hab)
      rw [this, Finset.image_id]
    unfold classes
    rw [this, Finset.card_range]; rfl
  | append_singleton l e ih =>
    have h1 := ih (h.sublist (List.sublist_append_left _ _)) fun x hx => hn x (by simp [hx])
    have h2 := hn e (by simp)
    have h3 := classes_add h2.1 h2.2 (isForest_last h)
    rw [ends_append, List.length_append, List.length_singleton]
    show classes (ends l ++ [(e.1, e.2.1)]) n + _ = n
    omega

/-- A forest that connects no more has no more edges. -/
theorem _root_.NW.Spec.IsForest.length_le {F T : List (Nat × Nat × W)} (hF : IsForest F) (hT : IsForest T) {n : Nat} (hFn : ∀ e ∈ F, e.1 < n ∧ e.2.1 < n)
    (hTn : ∀ e ∈ T, e.1 < n ∧ e.2.1 < n) (h : ∀ x y, Conn (Pairs (ends F)) x y → Conn (Pairs (ends T)) x y) : F.length ≤ T.length := by
  have h1 := hF.count hFn
  have h2 := hT.count hTn
  have h3 := classes_mono h n
  omega

/-! ## Sums -/

theorem sorted_le {β : Type} [LinearOrder β] {A : List β} (hA : A.Pairwise (· ≤ ·)) {k : Nat} (hk : k < A.length) {w : β}
    (h : k + 1 ≤ (A.filter fun a => decide (a ≤ w)).length) : A[k] ≤ w := by
  by_contra hc
  have hc : w < A[k] := not_le.1 hc
  have hdrop : (A.drop k).filter (fun a => decide (a ≤ w)) = [] := by
    rw [List.filter_eq_nil_iff]
    intro a ha
    simp only [decide_eq_true_eq, not_le]
    rw [List.drop_eq_getElem_cons hk] at ha
    rcases List.mem_cons.1 ha with rfl | ha
    · exact hc
    · have := hA.sublist (List.drop_sublist k A)
      rw [List.drop_eq_getElem_cons hk] at this
      exact lt_of_lt_of_le hc ((List.pairwise_cons.1 this).1 a ha)
  have := congrArg List.length (List.filter_append (p := fun a => decide (a ≤ w)) (A.take k) (A.drop k))
  rw [List.take_append_drop, hdrop, List.append_nil] at this
  have h2 : ((A.take k).filter fun a => decide (a ≤ w)).length ≤ (A.take k).length := List.length_filter_le _ _
  rw [List.length_take] at h2
  omega

theorem sum_le_of_counts {β : Type} [AddCommMonoid β] [LinearOrder β] [IsOrderedAddMonoid β] {A B : List β} (hlen : A.length = B.length)
    (h : ∀ w, (B.filter fun b => decide (b ≤ w)).length ≤ (A.filter fun a => decide (a ≤ w)).length) : A.sum ≤ B.sum := by
  have sorted : ∀ l : List β, (l.mergeSort fun a b => decide (a ≤ b)).Pairwise (· ≤ ·) := by
    intro l
    have := List.pairwise_mergeSort (le := fun a b : β => decide (a ≤ b)) (fun a b c h1 h2 => by simp at *; exact le_trans h1 h2)
      (fun a b => by simp; exact le_total a b) l
    exact this.imp fun h => by simpa using h
  have pA := List.mergeSort_perm A fun a b => decide (a ≤ b)
  have pB := List.mergeSort_perm B fun a b => decide (a ≤ b)
  rw [← pA.sum_eq, ← pB.sum_eq]
  have sA := sorted A
  have sB := sorted B
  generalize A.mergeSort (fun a b => decide (a ≤ b)) = A' at pA sA
  generalize B.mergeSort (fun a b => decide (a ≤ b)) = B' at pB sB
  have hl : A'.length = B'.length := by rw [pA.length_eq, pB.length_eq, hlen]
  have h' : ∀ w, (B'.filter fun b => decide (b ≤ w)).length ≤ (A'.filter fun a => decide (a ≤ w)).length := by
    intro w
    rw [(pA.filter _).length_eq, (pB.filter _).length_eq]
    exact h w
  refine List.Forall₂.sum_le_sum (List.forall₂_iff_get.2 ⟨hl, ?_⟩)
  intro k hk hk'
  simp only [List.get_eq_getElem]
  refine sorted_le sA hk (Nat.le_trans ?_ (h' _))
  -- the first k + 1 elements of B' are at most B'[k]
  have : (B'.take (k + 1)).filter (fun b => decide (b ≤ B'[k])) = B'.take (k + 1) := by
    rw [List.filter_eq_self]
    intro b hb
    rw [decide_eq_true_eq]
    obtain ⟨i, hi, rfl⟩ := List.mem_iff_getElem.1 hb
    rw [List.length_take] at hi
    rw [List.getElem_take]
    rcases Nat.lt_or_ge i k with c | c
    · exact List.pairwise_iff_getElem.1 sB i k _ hk' c
    · have : i = k := by omega
      subst this; exact le_refl _
  have h3 : ((B'.take (k + 1)).filter fun b => decide (b ≤ B'[k])).length ≤ (B'.filter fun b => decide (b ≤ B'[k])).length :=
    ((List.take_sublist _ _).filter _).length_le
  rw [this, List.length_take] at h3
  omega

end NW.Dsu
