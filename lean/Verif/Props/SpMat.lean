import Verif.Model.SpMat
import Verif.Spec.Matrix
import Verif.Lemmas.ListRes
import Mathlib.Algebra.BigOperators.Ring.Finset
import Mathlib.Algebra.BigOperators.Ring.List
import Mathlib.Algebra.BigOperators.Group.Finset.Piecewise

/-! # Properties C35, C36: sparse matrix products -/

namespace NW.SpMat
open Spec

variable {α β γ : Type}

/-! ## The ordered map -/

def keys (m : List (Nat × γ)) : List Nat := m.map Prod.fst

theorem mapFind_mapSet (m : List (Nat × γ)) (j j' : Nat) (x : γ) :
    mapFind (mapSet m j x) j' = if j = j' then some x else mapFind m j' := by
  induction m with
  | nil => simp [mapSet, mapFind]
  | cons p m ih =>
    obtain ⟨k, y⟩ := p
    simp only [mapSet]
    split
    · simp only [mapFind]
    · split
      · rename_i h1 h2
        subst h2
        simp only [mapFind]
        split <;> rfl
      · rename_i h1 h2
        simp only [mapFind, ih]
        by_cases c : k = j'
        · subst c
          rw [if_pos rfl, if_neg (fun h => h2 h.symm), if_pos rfl]
        · rw [if_neg c, if_neg c]

theorem mem_keys_mapSet (m : List (Nat × γ)) (j k : Nat) (x : γ) : k ∈ keys (mapSet m j x) → k = j ∨ k ∈ keys m := by
  induction m with
  | nil => simp [mapSet, keys]
  | cons p m ih =>
    obtain ⟨k', y⟩ := p
    simp only [mapSet]
    split
    · simp [keys]
    · split
      · simp only [keys, List.map_cons, List.mem_cons]
        tauto
      · simp only [keys, List.map_cons, List.mem_cons] at ih ⊢
        tauto

theorem sorted_mapSet (m : List (Nat × γ)) (j : Nat) (x : γ) (h : (keys m).Pairwise (· < ·)) : (keys (mapSet m j x)).Pairwise (· < ·) := by
  induction m with
  | nil => simp [mapSet, keys]
  | cons p m ih =>
    obtain ⟨k', y⟩ := p
    simp only [keys, List.map_cons, List.pairwise_cons] at h
    simp only [mapSet]
    split
    · rename_i hj
      simp only [keys, List.map_cons, List.pairwise_cons]
      refine ⟨?_, h⟩
      intro a ha
      rcases List.mem_cons.1 ha with rfl | ha
      · exact hj
      · exact Nat.lt_trans hj (h.1 a ha)
    · split
      · rename_i h1 h2
        subst h2
        simp only [keys, List.map_cons, List.pairwise_cons]
        exact h
      · rename_i h1 h2
        simp only [keys, List.map_cons, List.pairwise_cons]
        refine ⟨?_, ih h.2⟩
        intro a ha
        rcases mem_keys_mapSet m j a x ha with rfl | ha
        · omega
        · exact h.1 a ha

theorem mem_iff_mapFind (m : List (Nat × γ)) (h : (keys m).Pairwise (· < ·)) (j : Nat) (x : γ) : (j, x) ∈ m ↔ mapFind m j = some x := by
  induction m with
  | nil => simp [mapFind]
  | cons p m ih =>
    obtain ⟨k, y⟩ := p
    simp only [keys, List.map_cons, List.pairwise_cons] at h
    simp only [mapFind, List.mem_cons, Prod.mk.injEq]
    by_cases c : k = j
    · subst c
      rw [if_pos rfl]
      constructor
      · rintro (⟨-, rfl⟩ | hm)
        · rfl
        · have := h.1 k (List.mem_map_of_mem (f := Prod.fst) hm)
          omega
      · intro he; cases he; exact Or.inl ⟨rfl, rfl⟩
    · rw [if_neg c, ← ih h.2]
      constructor
      · rintro (⟨rfl, -⟩ | hm)
        · exact absurd rfl c
        · exact hm
      · exact Or.inr

/-! ## One row of the product -/

/-- Reduce a list from the left, if it is not empty. -/
def reduce1 (add : γ → γ → γ) : List γ → Option γ
  | [] => none
  | x :: xs => some (xs.foldl add x)

theorem reduce1_append (add : γ → γ → γ) (l : List γ) (t : γ) :
    reduce1 add (l ++ [t]) = some (match reduce1 add l with | some x => add x t | none => t) := by
  cases l with
  | nil => rfl
  | cons x xs => simp [reduce1, List.foldl_append]

def stepItem (add : γ → γ → γ) (m : List (Nat × γ)) (jt : Nat × γ) : List (Nat × γ) :=
  match mapFind m jt.1 with
  | some x => mapSet m jt.1 (add x jt.2)
  | none => mapSet m jt.1 jt.2

def col (L : List (Nat × γ)) (j : Nat) : List γ := (L.filter fun e => e.1 == j).map Prod.snd

theorem foldl_stepItem (add : γ → γ → γ) (L : List (Nat × γ)) :
    (keys (L.foldl (stepItem add) [])).Pairwise (· < ·) ∧ ∀ j, mapFind (L.foldl (stepItem add) []) j = reduce1 add (col L j) := by
  induction L using List.reverseRecOn with
  | nil => exact ⟨List.Pairwise.nil, fun j => rfl⟩
  | append_singleton L jt ih =>
    obtain ⟨j0, t⟩ := jt
    rw [List.foldl_append, List.foldl_cons, List.foldl_nil]
    generalize L.foldl (stepItem add) [] = m at ih
    obtain ⟨h1, h2⟩ := ih
    have hm : stepItem add m (j0, t) = mapSet m j0 (match reduce1 add (col L j0) with | some x => add x t | none => t) := by
      unfold stepItem
      simp only []
      rw [h2 j0]
      cases reduce1 add (col L j0) <;> rfl
    rw [hm]
    refine ⟨sorted_mapSet _ _ _ h1, ?_⟩
    intro j
    rw [mapFind_mapSet]
    have hc : col (L ++ [(j0, t)]) j = col L j ++ (if j0 = j then [t] else []) := by
      unfold col
      rw [List.filter_append, List.map_append]
      congr 1
      by_cases c : j0 = j <;> simp [c]
    rw [hc]
    by_cases c : j0 = j
    · subst c
      rw [if_pos rfl, if_pos rfl, reduce1_append]
    · rw [if_neg c, if_neg c, List.append_nil, h2]

/-- The products that contribute to a row of the product, with their columns. -/
def items (mul : α → β → γ) (B : Rows β) (Ai : List (Nat × α)) : List (Nat × γ) :=
  Ai.flatMap fun ka => (B.getD ka.1 []).map fun e => (e.1, mul ka.2 e.2)

theorem rowMap_ok (mul : α → β → γ) (add : γ → γ → γ) (B : Rows β) (Ai : List (Nat × α)) (h : ∀ ka ∈ Ai, ka.1 < B.length) :
    rowMap mul add B Ai = .ok ((items mul B Ai).foldl (stepItem add) []) := by
  unfold rowMap
  obtain ⟨r, h1, h2⟩ := foldlM_list_inv (l := Ai) (s := ([] : List (Nat × γ)))
    (f := fun m ka => do let Bk ← vget B ka.1; return Bk.foldl (accumulate1 mul add ka.2) m)
    (fun pre m => m = (items mul B pre).foldl (stepItem add) []) rfl (by
      intro pre ka post hl m hm
      have hk := h ka (by rw [hl]; simp)
      refine ⟨B[ka.1].foldl (accumulate1 mul add ka.2) m, by rw [vget_of_lt hk]; rfl, ?_⟩
      have : items mul B (pre ++ [ka]) = items mul B pre ++ B[ka.1].map fun e => (e.1, mul ka.2 e.2) := by
        unfold items
        rw [List.flatMap_append, List.flatMap_singleton, List.getD_eq_getElem?_getD, List.getElem?_eq_getElem hk]
        rfl
      rw [this, List.foldl_append, ← hm, List.foldl_map]
      rfl)
  rw [h1, h2]

/-- All products `a * b` with `a` stored in row `i` of `A` at some column `k` and `b` stored in row `k` of `B` at column `j`, in storage order. -/
def products (mul : α → β → γ) (A : Rows α) (B : Rows β) (i j : Nat) : List γ :=
  (A.getD i []).flatMap fun ka => ((B.getD ka.1 []).filter fun e => e.1 == j).map fun e => mul ka.2 e.2

theorem col_items (mul : α → β → γ) (A : Rows α) (B : Rows β) (i j : Nat) : col (items mul B (A.getD i [])) j = products mul A B i j := by
  unfold col items products
  rw [List.filter_flatMap, List.map_flatMap]
  congr 1
  funext ka
  rw [List.filter_map, List.map_map]
  rfl

/-- `(i, j)` before `(i', j')`, row by row. -/
def Before (x y : Nat × Nat × γ) : Prop := x.1 < y.1 ∨ (x.1 = y.1 ∧ x.2.1 < y.2.1)

/-- C35 for arbitrary operations.  The result has one entry at most per position, in row-major order, and holds at `(i, j)` the products reduced from
the left, exactly if there are any. -/
theorem spMatspMat_reduce (mul : α → β → γ) (add : γ → γ → γ) (A : Rows α) (B : Rows β) (h : ∀ i k, Edge A i k → k < B.length) :
    ∃ l, spMatspMat mul add A B = .ok l ∧ l.Pairwise Before ∧ ∀ i j x, (i, j, x) ∈ l ↔ reduce1 add (products mul A B i j) = some x := by
  unfold spMatspMat
  obtain ⟨r, h1, h2, h3, h4⟩ := foldlM_range_inv (n := A.length) (s := ([] : List (Nat × Nat × γ)))
    (f := fun edges i => do
      let Ai ← vget A i
      let m ← rowMap mul add B Ai
      return m.foldl (fun edges elt => edges ++ [(i, elt.1, elt.2)]) edges)
    (fun n l => l.Pairwise Before ∧ (∀ e ∈ l, e.1 < n) ∧ ∀ i j x, i < n → ((i, j, x) ∈ l ↔ reduce1 add (products mul A B i j) = some x))
    ⟨List.Pairwise.nil, by simp, by omega⟩
    (by
      intro n hn l ⟨i1, i2, i3⟩
      have hA : A[n] = A.getD n [] := by rw [List.getD_eq_getElem?_getD, List.getElem?_eq_getElem hn]; rfl
      obtain ⟨f1, f2⟩ := foldl_stepItem add (items mul B A[n])
      have hfold : ∀ (m : List (Nat × γ)) (l : List (Nat × Nat × γ)),
          m.foldl (fun edges elt => edges ++ [(n, elt.1, elt.2)]) l = l ++ m.map fun elt => (n, elt.1, elt.2) := by
        intro m
        induction m with
        | nil => simp
        | cons e m ih => intro l; rw [List.foldl_cons, ih, List.append_assoc]; rfl
      refine ⟨_, by
        rw [vget_of_lt hn, res_bind_ok, rowMap_ok mul add B A[n] (fun ka hka => h n ka.1 (by
          show ka.1 ∈ (A.getD n []).map Prod.fst
          rw [← hA]; exact List.mem_map_of_mem hka)), res_bind_ok, hfold]; rfl, ?_, ?_, ?_⟩
      · rw [List.pairwise_append]
        refine ⟨i1, ?_, ?_⟩
        · rw [List.pairwise_map]
          have := f1
          unfold keys at this
          rw [List.pairwise_map] at this
          exact this.imp fun hab => Or.inr ⟨rfl, hab⟩
        · intro a ha b hb
          obtain ⟨e, -, rfl⟩ := List.mem_map.1 hb
          exact Or.inl (i2 a ha)
      · intro e he
        rcases List.mem_append.1 he with he | he
        · have := i2 e he; omega
        · obtain ⟨e', -, rfl⟩ := List.mem_map.1 he
          exact Nat.lt_succ_self n
      · intro i j x hi
        rw [List.mem_append]
        by_cases c : i = n
        · subst c
          have : (i, j, x) ∉ l := fun hm => by have := i2 _ hm; simp at this
          rw [or_iff_right this, ← col_items, ← hA, ← f2, ← mem_iff_mapFind _ f1]
          constructor
          · intro hm
            obtain ⟨e, he, heq⟩ := List.mem_map.1 hm
            cases heq; exact he
          · intro hm
            exact List.mem_map.2 ⟨(j, x), hm, rfl⟩
        · rw [← i3 i j x (by omega)]
          constructor
          · rintro (hm | hm)
            · exact hm
            · obtain ⟨e, he, heq⟩ := List.mem_map.1 hm
              cases heq; exact absurd rfl c
          · exact Or.inl)
  refine ⟨r, h1, h2, ?_⟩
  intro i j x
  by_cases c : i < A.length
  · exact h4 i j x c
  · constructor
    · intro hm; exact absurd (h3 _ hm) c
    · intro hm
      unfold products at hm
      rw [List.getD_eq_getElem?_getD, List.getElem?_eq_none (by omega)] at hm
      cases hm

theorem reduce1_sum [AddMonoid γ] (l : List γ) : reduce1 (· + ·) l = if l = [] then none else some l.sum := by
  cases l with
  | nil => rfl
  | cons x xs =>
    rw [if_neg (by simp), List.sum_cons]
    simp only [reduce1]
    congr 1
    induction xs generalizing x with
    | nil => simp
    | cons y ys ih => rw [List.foldl_cons, ih, List.sum_cons, add_assoc]

/-- Summing over the stored entries of a row is summing over the columns. -/
theorem sum_row [NonUnitalNonAssocSemiring γ] (row : List (Nat × γ)) (c : Nat) (hc : ∀ e ∈ row, e.1 < c) (f : Nat → γ) :
    (row.map fun e => e.2 * f e.1).sum = ∑ k ∈ Finset.range c, (((row.filter fun e => e.1 == k).map Prod.snd).sum) * f k := by
  induction row with
  | nil => simp
  | cons e row ih =>
    rw [List.map_cons, List.sum_cons, ih fun x hx => hc x (by simp [hx])]
    have : ∀ k, ((((e :: row).filter fun e => e.1 == k).map Prod.snd).sum) * f k =
        (if k = e.1 then e.2 * f k else 0) + (((row.filter fun e => e.1 == k).map Prod.snd).sum) * f k := by
      intro k
      by_cases c : k = e.1
      · subst c; simp [add_mul]
      · have : (e.1 == k) = false := by simpa using fun h => c h.symm
        rw [List.filter_cons, this, if_neg c]; simp
    simp only [this]
    rw [Finset.sum_add_distrib, Finset.sum_ite_eq', if_pos (Finset.mem_range.2 (hc e (by simp)))]

theorem products_ne_nil (mul : α → β → γ) (A : Rows α) (B : Rows β) (i j : Nat) : products mul A B i j ≠ [] ↔ ∃ k, Edge A i k ∧ Edge B k j := by
  unfold products
  constructor
  · intro hne
    obtain ⟨x, hx⟩ := List.exists_mem_of_ne_nil _ hne
    rw [List.mem_flatMap] at hx
    obtain ⟨ka, h1, h2⟩ := hx
    obtain ⟨e, he, -⟩ := List.mem_map.1 h2
    rw [List.mem_filter] at he
    refine ⟨ka.1, List.mem_map_of_mem h1, ?_⟩
    have : e.1 = j := by simpa using he.2
    rw [← this]
    exact List.mem_map_of_mem he.1
  · rintro ⟨k, h1, h2⟩ hnil
    obtain ⟨ka, h3, rfl⟩ := List.mem_map.1 h1
    obtain ⟨e, h4, rfl⟩ := List.mem_map.1 h2
    have : mul ka.2 e.2 ∈ ([] : List γ) := by
      rw [← hnil, List.mem_flatMap]
      exact ⟨ka, h3, List.mem_map.2 ⟨e, List.mem_filter.2 ⟨h4, by simp⟩, rfl⟩⟩
    simp at this

/-- C35.  Over any semiring, `spMatspMat(A, B)` is the matrix product: there is at most one entry per position, in row-major order; there is one at
`(i, j)` exactly if some column `k` is stored in row `i` of `A` and column `j` is stored in row `k` of `B`; its value is the sum over `k` of
`A i k * B k j`, where values stored more than once at a position count as their sum. -/
theorem spMatspMat_correct [NonUnitalSemiring γ] (A B : Rows γ) (h : ∀ i k, Edge A i k → k < B.length) :
    ∃ l, spMatspMat (· * ·) (· + ·) A B = .ok l ∧ l.Pairwise (fun x y => x.1 < y.1 ∨ (x.1 = y.1 ∧ x.2.1 < y.2.1)) ∧
      ∀ i j x, (i, j, x) ∈ l ↔ (∃ k, Edge A i k ∧ Edge B k j) ∧ x = ∑ k ∈ Finset.range B.length, entry A i k * entry B k j := by
  obtain ⟨l, h1, h2, h3⟩ := spMatspMat_reduce (· * ·) (· + ·) A B h
  refine ⟨l, h1, h2, ?_⟩
  intro i j x
  have hsum : (products (· * ·) A B i j).sum = ∑ k ∈ Finset.range B.length, entry A i k * entry B k j := by
    have := sum_row (A.getD i []) B.length (fun e he => h i e.1 (List.mem_map_of_mem he)) (fun k => entry B k j)
    unfold entry at this ⊢
    rw [← this]
    unfold products
    rw [List.flatMap, List.sum_flatten, List.map_map]
    congr 2
    funext ka
    simp only [Function.comp]
    rw [← List.sum_map_mul_left]
  rw [h3, reduce1_sum, ← products_ne_nil (· * ·), hsum]
  constructor
  · intro he
    split at he
    · cases he
    · rename_i hne
      cases he
      exact ⟨hne, rfl⟩
  · rintro ⟨hne, rfl⟩
    rw [if_neg hne]

/-! ## Product with a transpose -/

def ewiseL (mul : α → β → γ) : List (Nat × α) → List (Nat × β) → List γ
  | [], _ => []
  | _, [] => []
  | x :: xs, y :: ys =>
    if x.1 < y.1 then ewiseL mul xs (y :: ys)
    else if ¬ y.1 < x.1 then mul x.2 y.2 :: ewiseL mul xs ys
    else ewiseL mul (x :: xs) ys
termination_by xs ys => xs.length + ys.length

theorem ewise_ok (mul : α → β → γ) (xs : List (Nat × α)) (ys : List (Nat × β)) (i j : Nat) (out : List γ) :
    ewise mul xs ys i j out = .ok (out ++ ewiseL mul (xs.drop i) (ys.drop j)) := by
  induction hk : (xs.length - i) + (ys.length - j) using Nat.strongRecOn generalizing i j out with
  | ind k ih =>
    unfold ewise
    by_cases c : i < xs.length ∧ j < ys.length
    · rw [dif_pos c, vget_of_lt c.1, res_bind_ok, vget_of_lt c.2, res_bind_ok, List.drop_eq_getElem_cons c.1, List.drop_eq_getElem_cons c.2]
      unfold ewiseL
      split
      · rw [ih _ (by omega) (i + 1) j _ rfl, List.drop_eq_getElem_cons c.2]
      · split
        · rw [ih _ (by omega) (i + 1) (j + 1) _ rfl, List.append_assoc]; rfl
        · rw [ih _ (by omega) i (j + 1) _ rfl, List.drop_eq_getElem_cons c.1]
    · rw [dif_neg c]
      have : xs.drop i = [] ∨ ys.drop j = [] := by
        rcases Nat.lt_or_ge i xs.length with d | d
        · exact Or.inr (List.drop_eq_nil_iff.2 (by omega))
        · exact Or.inl (List.drop_eq_nil_iff.2 d)
      rcases this with e | e
      · rw [e]; simp [ewiseL]
      · rw [e]
        cases xs.drop i <;> simp [ewiseL]

theorem ewiseL_ne_nil (mul : α → β → γ) (xs : List (Nat × α)) (ys : List (Nat × β)) (hx : (keys xs).Pairwise (· < ·)) (hy : (keys ys).Pairwise (· < ·)) :
    ewiseL mul xs ys ≠ [] ↔ ∃ k, k ∈ keys xs ∧ k ∈ keys ys := by
  induction xs, ys using ewiseL.induct with
  | case1 ys => simp [ewiseL, keys]
  | case2 xs => cases xs <;> simp [ewiseL, keys]
  | case3 x xs y ys hlt ih =>
    have hx' := List.pairwise_cons.1 hx
    have hy' := List.pairwise_cons.1 hy
    unfold ewiseL
    rw [if_pos hlt, ih hx'.2 hy]
    constructor
    · rintro ⟨k, h1, h2⟩; exact ⟨k, List.mem_cons_of_mem _ h1, h2⟩
    · rintro ⟨k, h1, h2⟩
      rcases List.mem_cons.1 h1 with e | h1
      · rcases List.mem_cons.1 h2 with e2 | h2
        · omega
        · have := hy'.1 k h2; omega
      · exact ⟨k, h1, h2⟩
  | case4 x xs y ys h1 h2 ih =>
    unfold ewiseL
    rw [if_neg h1, if_pos h2]
    refine ⟨fun _ => ⟨x.1, by simp [keys], ?_⟩, fun _ => by simp⟩
    have : x.1 = y.1 := by omega
    rw [this]; simp [keys]
  | case5 x xs y ys h1 h2 ih =>
    have hx' := List.pairwise_cons.1 hx
    have hy' := List.pairwise_cons.1 hy
    unfold ewiseL
    rw [if_neg h1, if_neg h2, ih hx hy'.2]
    constructor
    · rintro ⟨k, h1, h2⟩; exact ⟨k, h1, List.mem_cons_of_mem _ h2⟩
    · rintro ⟨k, h3, h4⟩
      rcases List.mem_cons.1 h4 with e | h4
      · rcases List.mem_cons.1 h3 with e2 | h3
        · omega
        · have := hx'.1 k h3; omega
      · exact ⟨k, h3, h4⟩

def ent [AddMonoid γ] (ys : List (Nat × γ)) (k : Nat) : γ := ((ys.filter fun e => e.1 == k).map Prod.snd).sum

theorem ent_cons [AddMonoid γ] (y : Nat × γ) (ys : List (Nat × γ)) (k : Nat) : ent (y :: ys) k = if y.1 = k then y.2 + ent ys k else ent ys k := by
  unfold ent
  by_cases c : y.1 = k <;> simp [c]

theorem ent_eq_zero [AddMonoid γ] (ys : List (Nat × γ)) (k : Nat) (h : k ∉ keys ys) : ent ys k = 0 := by
  induction ys with
  | nil => rfl
  | cons y ys ih =>
    simp only [keys, List.map_cons, List.mem_cons, not_or] at h
    rw [ent_cons, if_neg (fun e => h.1 e.symm), ih h.2]

theorem ewiseL_sum [NonUnitalNonAssocSemiring γ] (xs ys : List (Nat × γ)) (hx : (keys xs).Pairwise (· < ·)) (hy : (keys ys).Pairwise (· < ·)) :
    (ewiseL (· * ·) xs ys).sum = (xs.map fun e => e.2 * ent ys e.1).sum := by
  induction xs, ys using ewiseL.induct with
  | case1 ys => simp [ewiseL]
  | case2 xs => cases xs <;> simp [ewiseL, ent]
  | case3 x xs y ys hlt ih =>
    have hx' := List.pairwise_cons.1 hx
    have hy' := List.pairwise_cons.1 hy
    unfold ewiseL
    rw [if_pos hlt, ih hx'.2 hy, List.map_cons, List.sum_cons, ent_eq_zero, mul_zero, zero_add]
    intro hm
    rcases List.mem_cons.1 hm with e | hm
    · omega
    · have := hy'.1 _ hm; omega
  | case4 x xs y ys h1 h2 ih =>
    have hx' := List.pairwise_cons.1 hx
    have hy' := List.pairwise_cons.1 hy
    have he : y.1 = x.1 := by omega
    unfold ewiseL
    rw [if_neg h1, if_pos h2, List.sum_cons, ih hx'.2 hy'.2, List.map_cons, List.sum_cons, ent_cons, if_pos he,
      ent_eq_zero ys, add_zero]
    · congr 2
      apply List.map_congr_left
      intro e hm
      rw [ent_cons, if_neg]
      have := hx'.1 e.1 (List.mem_map_of_mem hm)
      omega
    · intro hm
      have := hy'.1 _ hm; omega
  | case5 x xs y ys h1 h2 ih =>
    have hx' := List.pairwise_cons.1 hx
    have hy' := List.pairwise_cons.1 hy
    unfold ewiseL
    rw [if_neg h1, if_neg h2, ih hx hy'.2]
    congr 1
    apply List.map_congr_left
    intro e hm
    rw [ent_cons, if_neg]
    rcases List.mem_cons.1 hm with rfl | hm
    · omega
    · have := hx'.1 e.1 (List.mem_map_of_mem hm)
      omega

/-- C36.  Over any semiring, for matrices whose rows are strictly increasing, `spMatspMatT(A, B)` is the product of `A` with the transpose of `B`:
at most one entry per position, in row-major order; one at `(i, j)` exactly if row `i` of `A` and row `j` of `B` share a column; its value is the
sum over the columns `k` of `A i k * B j k`. -/
theorem spMatspMatT_correct [NonUnitalSemiring γ] (A B : Rows γ) (hA : ∀ i, (nbrs A i).Pairwise (· < ·)) (hB : ∀ i, (nbrs B i).Pairwise (· < ·))
    (c : Nat) (hc : ∀ i k, Edge A i k → k < c) :
    ∃ l, spMatspMatT (· * ·) (· + ·) 0 A B = .ok l ∧ l.Pairwise (fun x y => x.1 < y.1 ∨ (x.1 = y.1 ∧ x.2.1 < y.2.1)) ∧
      ∀ i j x, (i, j, x) ∈ l ↔ (∃ k, Edge A i k ∧ Edge B j k) ∧ x = ∑ k ∈ Finset.range c, entry A i k * entry B j k := by
  have hdot : ∀ i j, (ewiseL (· * ·) (A.getD i []) (B.getD j [])).sum = ∑ k ∈ Finset.range c, entry A i k * entry B j k := by
    intro i j
    rw [ewiseL_sum _ _ (hA i) (hB j), sum_row (A.getD i []) c (fun e he => hc i e.1 (List.mem_map_of_mem he)) (ent (B.getD j []))]
    rfl
  have hne : ∀ i j, ewiseL (· * ·) (A.getD i []) (B.getD j []) ≠ [] ↔ ∃ k, Edge A i k ∧ Edge B j k := fun i j => ewiseL_ne_nil _ _ _ (hA i) (hB j)
  have hfold0 : ∀ l : List γ, l.foldl (· + ·) 0 = l.sum := by
    intro l
    have : ∀ (l : List γ) a, l.foldl (· + ·) a = a + l.sum := by
      intro l
      induction l with
      | nil => simp
      | cons y ys ih => intro a; rw [List.foldl_cons, ih, List.sum_cons, add_assoc]
    rw [this, zero_add]
  have hstep : ∀ i j edges, dotStep (· * ·) (· + ·) 0 i (A.getD i []) edges (j, B.getD j []) =
      .ok (if ewiseL (· * ·) (A.getD i []) (B.getD j []) = [] then edges else edges ++ [(i, j, ∑ k ∈ Finset.range c, entry A i k * entry B j k)]) := by
    intro i j edges
    unfold dotStep
    rw [ewise_ok, res_bind_ok]
    simp only [List.drop_zero, List.nil_append, List.isEmpty_iff, hfold0, hdot]
    split <;> rfl
  have hzip : ∀ (M : Rows γ) (p : Nat) (pre post : List (Nat × List (Nat × γ))) (ia : Nat × List (Nat × γ)),
      (M.zipIdx.map fun x => (x.2, x.1)) = pre ++ ia :: post → pre.length = p → ia = (p, M.getD p []) ∧ p < M.length := by
    intro M p pre post ia he hp
    have h1 : (M.zipIdx.map fun x => (x.2, x.1))[p]? = some ia := by rw [he, ← hp]; simp
    rw [List.getElem?_map, List.getElem?_zipIdx] at h1
    rw [List.getD_eq_getElem?_getD]
    rcases hm : M[p]? with _ | row
    · rw [hm] at h1; cases h1
    · rw [hm] at h1
      have := (List.getElem?_eq_some_iff.1 hm).1
      simp only [Option.map_some, Option.some.injEq] at h1
      exact ⟨by rw [← h1]; simp, this⟩
  let P := fun (a b : Nat) (l : List (Nat × Nat × γ)) =>
    l.Pairwise Before ∧ (∀ e ∈ l, (e.1 < a ∨ (e.1 = a ∧ e.2.1 < b)) ∧ e.2.1 < B.length) ∧
      ∀ i j x, (i < a ∧ j < B.length) ∨ (i = a ∧ j < b) → ((i, j, x) ∈ l ↔ (∃ k, Edge A i k ∧ Edge B j k) ∧ x = ∑ k ∈ Finset.range c, entry A i k * entry B j k)
  have hone : ∀ a b l, b < B.length → P a b l → P a (b + 1)
      (if ewiseL (· * ·) (A.getD a []) (B.getD b []) = [] then l else l ++ [(a, b, ∑ k ∈ Finset.range c, entry A a k * entry B b k)]) := by
    rintro a b l hb ⟨i1, i2, i3⟩
    have hno : ∀ x, (a, b, x) ∉ l := by
      intro x hm
      have := i2 _ hm
      simp at this
    split
    · rename_i hnil
      refine ⟨i1, fun e he => by have := i2 e he; omega, ?_⟩
      intro i j x hij
      by_cases cc : i = a ∧ j = b
      · obtain ⟨rfl, rfl⟩ := cc
        constructor
        · intro hm; exact absurd hm (hno x)
        · rintro ⟨hk, -⟩; exact absurd hnil ((hne i j).2 hk)
      · exact i3 i j x (by omega)
    · rename_i hnn
      refine ⟨?_, ?_, ?_⟩
      · rw [List.pairwise_append]
        refine ⟨i1, by simp, ?_⟩
        intro x hx y hy
        rw [List.mem_singleton] at hy
        subst hy
        exact (i2 x hx).1
      · intro e he
        rcases List.mem_append.1 he with he | he
        · have := i2 e he; omega
        · rw [List.mem_singleton] at he; subst he
          exact ⟨Or.inr ⟨rfl, Nat.lt_succ_self b⟩, hb⟩
      · intro i j x hij
        rw [List.mem_append, List.mem_singleton]
        by_cases cc : i = a ∧ j = b
        · obtain ⟨rfl, rfl⟩ := cc
          rw [or_iff_right (hno x)]
          constructor
          · intro he; cases he; exact ⟨(hne i j).1 hnn, rfl⟩
          · rintro ⟨-, rfl⟩; rfl
        · rw [← i3 i j x (by omega)]
          constructor
          · rintro (hm | hm)
            · exact hm
            · cases hm; exact absurd ⟨rfl, rfl⟩ cc
          · exact Or.inl
  unfold spMatspMatT
  obtain ⟨r, h1, h2⟩ := foldlM_list_inv (l := A.zipIdx.map fun x => (x.2, x.1)) (s := ([] : List (Nat × Nat × γ)))
    (f := fun edges ia => (B.zipIdx.map fun x => (x.2, x.1)).foldlM (init := edges) (dotStep (· * ·) (· + ·) 0 ia.1 ia.2))
    (fun pre l => P pre.length 0 l)
    ⟨List.Pairwise.nil, by simp, by intro i j x hij; simp at hij⟩
    (by
      intro pre ia post hl l hl'
      obtain ⟨he, hlt⟩ := hzip A _ pre post ia hl rfl
      subst he
      obtain ⟨r, h1, h2⟩ := foldlM_list_inv (l := B.zipIdx.map fun x => (x.2, x.1)) (s := l)
        (f := dotStep (· * ·) (· + ·) 0 pre.length (A.getD pre.length []))
        (fun pre' l => P pre.length pre'.length l) hl'
        (by
          intro pre' jb post' hb l hl'
          obtain ⟨he, hlt'⟩ := hzip B _ pre' post' jb hb rfl
          subst he
          refine ⟨_, hstep _ _ _, ?_⟩
          rw [List.length_append, List.length_singleton]
          exact hone _ _ _ hlt' hl')
      refine ⟨r, h1, ?_⟩
      rw [List.length_map, List.length_zipIdx] at h2
      rw [List.length_append, List.length_singleton]
      obtain ⟨j1, j2, j3⟩ := h2
      refine ⟨j1, ?_, ?_⟩
      · intro e he
        have := j2 e he
        omega
      · intro i j x hij
        exact j3 i j x (by omega))
  rw [List.length_map, List.length_zipIdx] at h2
  obtain ⟨j1, j2, j3⟩ := h2
  refine ⟨r, h1, j1, ?_⟩
  intro i j x
  by_cases cc : i < A.length ∧ j < B.length
  · exact j3 i j x (Or.inl cc)
  · constructor
    · intro hm
      have : (i < A.length ∨ (i = A.length ∧ j < 0)) ∧ j < B.length := j2 _ hm
      omega
    · rintro ⟨⟨k, h1, h2⟩, -⟩
      exact absurd ⟨h1.src_lt, h2.src_lt⟩ cc

/-! ## The hypotheses can be met: two integer matrices, one with a duplicate entry -/

def exA : Rows Int := [[(0, 2), (1, 3)], [], [(1, 1), (1, 4)]]
def exB : Rows Int := [[(2, 1), (0, 5)], [(0, -1)]]
def exC : Rows Int := [[(0, 2), (1, 3)], [], [(1, 1), (2, 4)]]
def exD : Rows Int := [[(0, 1), (2, 5)], [(0, 3), (1, -2)]]

example : ∀ i k, Edge exA i k → k < exB.length := by
  intro i k h
  have hi : i < 3 := h.src_lt
  have hk : k ∈ [0, 1, 1, 1] := by
    have : ∀ i < 3, ∀ k ∈ nbrs exA i, k ∈ [0, 1, 1, 1] := by decide
    exact this i hi k h
  simp at hk
  show k < 2
  omega

example : spMatspMat (· * ·) (· + ·) exA exB = .ok [(0, 0, 7), (0, 2, 2), (2, 0, -5)] := by decide +kernel

theorem sorted_of_lt {γ : Type} {M : Rows γ} (h : ∀ u < M.length, (nbrs M u).Pairwise (· < ·)) (u : Nat) : (nbrs M u).Pairwise (· < ·) := by
  rcases Nat.lt_or_ge u M.length with c | c
  · exact h u c
  · unfold nbrs; rw [List.getD_eq_getElem?_getD, List.getElem?_eq_none c]; exact List.Pairwise.nil

example : (∀ u, (nbrs exC u).Pairwise (· < ·)) ∧ (∀ u, (nbrs exD u).Pairwise (· < ·)) :=
  ⟨sorted_of_lt (by decide), sorted_of_lt (by decide)⟩

/-- A product that sums to zero is still stored. -/
example : spMatspMatT (· * ·) (· + ·) 0 exC exD = .ok [(0, 0, 2), (0, 1, 0), (2, 0, 20), (2, 1, -2)] := by decide +kernel

end NW.SpMat
