import Verif.Spec.Program

/-!
# C98: zipped columns behave like an array of tuples

Whatever an algorithm does through the iterators, the columns are at every moment those of the array of tuples on which the same algorithm works; in particular sorting moves the entries of all columns
in the same way.
-/

namespace NW.Zip
open Spec

variable {k : Nat}

/-- Columns that hold the tuples of `l`, possibly followed by other entries. -/
def Holds {τ : Fin k → Type} (c : Cols τ) (l : List (Tup τ)) (rest : Cols τ) : Prop := ∀ i, c i = l.map (· i) ++ rest i

variable {τ : Fin (k + 1) → Type} {ρ : Type}

/-- C98.  If every column has at least the entries of the tuples of `l`, a program that does not leave `l` gives the same result on the columns as on `l`, does not leave the columns, ends with the
columns of what it makes of `l`, and changes nothing beyond. -/
theorem zip_program (p : Prog (Tup τ) ρ) {c : Cols τ} {l : List (Tup τ)} {rest : Cols τ} (h : Holds c l rest) {r : ρ} {l' : List (Tup τ)} (hp : onArray p l = .ok (r, l')) :
    ∃ c', p.onCols c = .ok (r, c') ∧ Holds c' l' rest := by
  induction p generalizing c l with
  | ret r => cases hp; exact ⟨c, rfl, h⟩
  | read j next ih =>
    unfold onArray at hp
    split at hp
    · rename_i hj
      have hb : ∀ i, j < (c i).length := fun i => by rw [h i]; simp; omega
      have e : read c j = .ok l[j] := by
        unfold read
        rw [dif_pos hb]
        congr 1
        funext i
        simp [h i, hj]
      unfold Prog.onCols
      rw [e]
      exact ih _ h hp
    · cases hp
  | write j x next ih =>
    unfold onArray at hp
    split at hp
    · rename_i hj
      have hb : ∀ i, j < (c i).length := fun i => by rw [h i]; simp; omega
      unfold Prog.onCols write
      rw [if_pos hb]
      refine ih (l := l.set j x) (fun i => ?_) hp
      rw [h i, List.set_append_left _ _ (by simpa using hj), List.map_set]
    · cases hp
  | swap a b next ih =>
    unfold onArray at hp
    split at hp
    · rename_i hab
      have ha : ∀ i, a < (c i).length := fun i => by rw [h i]; simp; omega
      have hb : ∀ i, b < (c i).length := fun i => by rw [h i]; simp; omega
      unfold Prog.onCols swap
      rw [dif_pos ⟨ha, hb⟩]
      refine ih (l := (l.set a l[b]).set b l[a]) (fun i => ?_) hp
      have e1 : (c i)[b]'(hb i) = l[b] i := by simp [h i, hab.2]
      have e2 : (c i)[a]'(ha i) = l[a] i := by simp [h i, hab.1]
      rw [e1, e2, h i, List.set_append_left _ _ (by simpa using hab.1), List.set_append_left _ _ (by simpa using hab.2), List.map_set, List.map_set]
    · cases hp

/-- C98.  If the columns are exactly those of `l`, a program that leaves `l` also leaves the columns: together with `zip_program` (with empty `rest`), the two cannot be told apart. -/
theorem zip_program_fault (p : Prog (Tup τ) ρ) {c : Cols τ} {l : List (Tup τ)} (h : ∀ i, c i = l.map (· i)) {f : Fault} (hp : onArray p l = .error f) : p.onCols c = .error f := by
  induction p generalizing c l with
  | ret r => cases hp
  | read j next ih =>
    unfold onArray at hp
    split at hp
    · rename_i hj
      have hb : ∀ i, j < (c i).length := fun i => by rw [h i]; simpa using hj
      have e : read c j = .ok l[j] := by
        unfold read
        rw [dif_pos hb]
        congr 1
        funext i
        simp [h i]
      unfold Prog.onCols
      rw [e]
      exact ih _ h hp
    · rename_i hj
      cases hp
      unfold Prog.onCols read
      rw [dif_neg]
      intro hb
      exact hj (by simpa [h 0] using hb 0)
  | write j x next ih =>
    unfold onArray at hp
    split at hp
    · rename_i hj
      have hb : ∀ i, j < (c i).length := fun i => by rw [h i]; simpa using hj
      unfold Prog.onCols write
      rw [if_pos hb]
      refine ih (l := l.set j x) (fun i => ?_) hp
      rw [h i, List.map_set]
    · rename_i hj
      cases hp
      unfold Prog.onCols write
      rw [if_neg]
      intro hb
      exact hj (by simpa [h 0] using hb 0)
  | swap a b next ih =>
    unfold onArray at hp
    split at hp
    · rename_i hab
      have ha : ∀ i, a < (c i).length := fun i => by rw [h i]; simpa using hab.1
      have hb : ∀ i, b < (c i).length := fun i => by rw [h i]; simpa using hab.2
      unfold Prog.onCols swap
      rw [dif_pos ⟨ha, hb⟩]
      refine ih (l := (l.set a l[b]).set b l[a]) (fun i => ?_) hp
      have e1 : (c i)[b]'(hb i) = l[b] i := by simp [h i]
      have e2 : (c i)[a]'(ha i) = l[a] i := by simp [h i]
      rw [e1, e2, h i, List.map_set, List.map_set]
    · rename_i hab
      cases hp
      unfold Prog.onCols swap
      rw [dif_neg]
      rintro ⟨ha, hb⟩
      exact hab ⟨by simpa [h 0] using ha 0, by simpa [h 0] using hb 0⟩

/-- A permutation of a list is a rearrangement of its positions. -/
theorem perm_positions {β : Type} {l l' : List β} (h : l'.Perm l) : ∃ σ : List Nat, σ.Perm (List.range l.length) ∧ l'.map some = σ.map fun j => l[j]? := by
  induction h with
  | nil => exact ⟨[], by simp, rfl⟩
  | @cons x l1 l2 _ ih =>
    obtain ⟨σ, h1, h2⟩ := ih
    refine ⟨0 :: σ.map (· + 1), ?_, ?_⟩
    · rw [List.length_cons, List.range_succ_eq_map]
      exact (h1.map _).cons _
    · rw [List.map_cons, List.map_cons, h2, List.map_map]
      rfl
  | swap x y l =>
    refine ⟨1 :: 0 :: (List.range l.length).map (· + 2), ?_, ?_⟩
    · rw [List.length_cons, List.length_cons, List.range_succ_eq_map, List.range_succ_eq_map, List.map_cons, List.map_map]
      exact .swap _ _ _
    · rw [List.map_cons, List.map_cons, List.map_cons, List.map_cons, List.map_map]
      congr 2
      apply List.ext_getElem?
      intro j
      rcases Nat.lt_or_ge j l.length with hj | hj
      · simp [hj]
      · simp [hj]
  | @trans l1 l2 l3 _ _ ih1 ih2 =>
    obtain ⟨σ, h1, h2⟩ := ih1
    obtain ⟨π, h3, h4⟩ := ih2
    refine ⟨σ.map fun j => π.getD j 0, ?_, ?_⟩
    · have hlen : l2.length = π.length := by simpa using congrArg List.length h4
      have e : (List.range l2.length).map (fun j => π.getD j 0) = π := by
        apply List.ext_getElem?
        intro j
        rcases Nat.lt_or_ge j π.length with hj | hj
        · simp [hlen, hj]
        · simp [hlen, hj]
      exact ((h1.map _).trans (by rw [e])).trans h3
    · rw [h2, List.map_map]
      apply List.map_congr_left
      intro j hj
      have hj' : j < l2.length := by simpa using (h1.mem_iff.1 hj)
      have hlen : l2.length = π.length := by simpa using congrArg List.length h4
      have := congrArg (·[j]?) h4
      simp only [List.getElem?_map] at this
      rw [List.getElem?_eq_getElem hj', List.getElem?_eq_getElem (by omega)] at this
      simp only [Option.map_some, Option.some.injEq] at this
      rw [List.getElem?_eq_getElem hj', Function.comp, List.getD_eq_getElem?_getD, List.getElem?_eq_getElem (show j < π.length by omega)]
      exact this

/-- C98.  A program that rearranges every array of tuples into one in which no element is less than an earlier one rearranges the columns, all in the same way, so that the tuples come in this order. -/
theorem zip_sort (p : Prog (Tup τ) ρ) {lt : Tup τ → Tup τ → Bool} {c : Cols τ} {l : List (Tup τ)} (h : ∀ i, c i = l.map (· i))
    (hp : ∃ r l', onArray p l = .ok (r, l') ∧ l'.Perm l ∧ l'.Pairwise fun a b => lt b a = false) :
    ∃ (r : ρ) (c' : Cols τ) (l' : List (Tup τ)), p.onCols c = .ok (r, c') ∧ (∀ i, c' i = l'.map (· i)) ∧ (l'.Pairwise fun a b => lt b a = false) ∧
      ∃ σ : List Nat, σ.Perm (List.range (size c)) ∧ ∀ i, (c' i).map some = σ.map fun j => (c i)[j]? := by
  obtain ⟨r, l', h1, h2, h3⟩ := hp
  obtain ⟨c', h4, h5⟩ := zip_program p (rest := fun _ => []) (fun i => by simpa using h i) h1
  have h6 : ∀ i, c' i = l'.map (· i) := fun i => by simpa using h5 i
  obtain ⟨σ, h7, h8⟩ := perm_positions h2
  refine ⟨r, c', l', h4, h6, h3, σ, by simpa [size, h 0] using h7, fun i => ?_⟩
  have := congrArg (List.map (Option.map (· i))) h8
  simp only [List.map_map] at this
  rw [h6 i, List.map_map]
  refine Eq.trans (Eq.trans ?_ this) ?_
  · rfl
  · apply List.map_congr_left
    intro j _
    simp [h i]

/-- `size()` looks at the first column only: if another column is shorter, reading the last element of the range leaves that column. -/
theorem zip_short_column {c : Cols τ} {i : Fin (k + 1)} (h : (c i).length < size c) : read c (size c - 1) = .error .outOfBounds := by
  unfold read
  rw [dif_neg]
  intro hb
  have := hb i
  omega

/-! ## Example: three columns of different types, and a program that sorts three elements by their first component -/

/-- Swap the elements at `a` and `b` if they are out of order. -/
def order {T ρ : Type} (key : T → Nat) (a b : Nat) (next : Prog T ρ) : Prog T ρ := .read a fun x => .read b fun y => if key y < key x then .swap a b next else next

abbrev exTypes : Fin 3 → Type
  | 0 => Nat
  | 1 => Bool
  | 2 => Int

def exTup (a : Nat) (b : Bool) (c : Int) : Tup exTypes
  | 0 => a
  | 1 => b
  | 2 => c

def exSort : Prog (Tup exTypes) Unit := order (· 0) 0 1 (order (· 0) 1 2 (order (· 0) 0 1 (.ret ())))

def exRows : List (Tup exTypes) := [exTup 7 true (-1), exTup 5 false 2, exTup 6 true 3]

def exCols : Cols exTypes := fun i => exRows.map (· i)

example : ∃ (r : Unit) (c' : Cols exTypes) (l' : List (Tup exTypes)), exSort.onCols exCols = .ok (r, c') ∧ (∀ i, c' i = l'.map (· i)) ∧ (l'.Pairwise fun a b => decide (b 0 < a 0) = false) ∧
    ∃ σ : List Nat, σ.Perm (List.range (size exCols)) ∧ ∀ i, (c' i).map some = σ.map fun j => (exCols i)[j]? :=
  zip_sort exSort (lt := fun a b => decide (a 0 < b 0)) (fun _ => rfl)
    ⟨(), [exTup 5 false 2, exTup 6 true 3, exTup 7 true (-1)], rfl, (List.Perm.swap _ _ _).trans (.cons _ (.swap _ _ _)) |>.symm, by simp [exTup]⟩

/-- The columns afterwards. -/
example : ∃ c', exSort.onCols exCols = .ok ((), c') ∧ c' 0 = [5, 6, 7] ∧ c' 1 = [false, true, true] ∧ c' 2 = [2, 3, -1] := ⟨_, rfl, rfl, rfl, rfl⟩

end NW.Zip
