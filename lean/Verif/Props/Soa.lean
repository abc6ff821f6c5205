import Verif.Model.Soa
import Verif.Spec.RowOps

/-!
# C135: `struct_of_arrays` behaves like a vector of tuples
-/

namespace NW.Soa
open Spec Zip

variable {k : Nat} {τ : Fin (k + 1) → Type}

/-- The columns are those of the tuples `l`. -/
def Rows (c : Cols τ) (l : List (Tup τ)) : Prop := ∀ i, c i = l.map (· i)

/-- The call on columns that the operation on tuples stands for. -/
inductive Means : Call τ → RowOp (Tup τ) → Prop
  | pushBack (x : Tup τ) : Means (.pushBack x) (.push x)
  | pushAt (j : Nat) (x : Tup τ) : Means (.pushAt j x) (.put j x)
  | clear : Means .clear .clear
  | resize (N : Nat) : Means (.resize N) (.resize N)
  | reserve (N : Nat) : Means (.reserve N) (.reserve N)
  | move {attrs : Cols τ} {xs : List (Tup τ)} (h : Rows attrs xs) : Means (.move attrs) (.replace xs)
  | copy {attrs : Cols τ} {xs : List (Tup τ)} (h : Rows attrs xs) : Means (.copy attrs) (.replace xs)

/-- The columns are what they hold: there is only one list of tuples. -/
theorem Rows.unique {c : Cols τ} {l l' : List (Tup τ)} (h : Rows c l) (h' : Rows c l') : l = l' := by
  have hlen : l.length = l'.length := by have := (h 0).symm.trans (h' 0); simpa using congrArg List.length this
  apply List.ext_getElem hlen
  intro j h1 h2
  funext i
  have := (h i).symm.trans (h' i)
  have h3 : (l.map (· i))[j]'(by simpa using h1) = (l'.map (· i))[j]'(by simpa using h2) := by simp only [this]
  simpa using h3

theorem Rows.length {c : Cols τ} {l : List (Tup τ)} (h : Rows c l) (i : Fin (k + 1)) : (c i).length = l.length := by rw [h i, List.length_map]

theorem call_rows {dflt : Tup τ} {c : Cols τ} {l : List (Tup τ)} (h : Rows c l) {a : Call τ} {op : RowOp (Tup τ)} (hm : Means a op) (hcopy : ∀ attrs xs, a = .copy attrs → op = .replace xs → xs.length = l.length) :
    match op.run dflt l with
    | some l' => ∃ c', call dflt c a = .ok c' ∧ Rows c' l'
    | none => call dflt c a = .error .outOfBounds := by
  cases hm with
  | pushBack x => exact ⟨_, rfl, fun i => by show c i ++ [x i] = _; rw [h i]; simp⟩
  | pushAt j x =>
    by_cases hj : j < l.length
    · simp only [RowOp.run, if_pos hj]
      refine ⟨fun i => (c i).set j (x i), ?_, ?_⟩
      · show pushAt c j x = _
        unfold pushAt
        rw [if_pos (fun i => by rw [h.length i]; exact hj)]
      · intro i
        show (c i).set j (x i) = _
        rw [h i, List.map_set]
    · simp only [RowOp.run, if_neg hj]
      show pushAt c j x = _
      unfold pushAt
      rw [if_neg (fun hall => hj (by have := hall 0; rwa [h.length 0] at this))]
  | clear => exact ⟨_, rfl, fun _ => rfl⟩
  | resize N =>
    refine ⟨_, rfl, fun i => ?_⟩
    show (c i).take N ++ List.replicate (N - (c i).length) (dflt i) = _
    rw [h.length i, h i, List.map_append, List.map_replicate, List.map_take]
  | reserve N => exact ⟨_, rfl, h⟩
  | move hx => exact ⟨_, rfl, hx⟩
  | @copy attrs xs hx =>
    have hl := hcopy attrs xs rfl rfl
    refine ⟨attrs, ?_, hx⟩
    show copy c attrs = _
    unfold copy
    rw [if_pos (fun i => by rw [hx.length i, h.length i, hl]; exact Nat.le_refl _)]
    congr 1
    funext i
    rw [List.drop_eq_nil_of_le (by rw [hx.length i, h.length i, hl]; exact Nat.le_refl _), List.append_nil]

/-- Running the operations one after the other on a vector of tuples; `copy` must be given as many elements as there are. -/
inductive Runs (dflt : Tup τ) : List (Tup τ) → List (Call τ) → Option (List (Tup τ)) → Prop
  | done (l : List (Tup τ)) : Runs dflt l [] (some l)
  | out {l : List (Tup τ)} {a : Call τ} {op : RowOp (Tup τ)} (as : List (Call τ)) (hm : Means a op) (h : op.run dflt l = none) : Runs dflt l (a :: as) none
  | step {l l' : List (Tup τ)} {a : Call τ} {op : RowOp (Tup τ)} {as : List (Call τ)} {r : Option (List (Tup τ))} (hm : Means a op)
      (hcopy : ∀ attrs xs, a = .copy attrs → op = .replace xs → xs.length = l.length) (h : op.run dflt l = some l') (hr : Runs dflt l' as r) : Runs dflt l (a :: as) r

/-- **C135.** Whatever is called, the columns are those of a vector of tuples on which the same was called, and a call leaves the columns exactly if it leaves the vector.  Missing: `copy` of more or fewer elements than there are, for which it is false (below). -/
theorem soa_history_partial (dflt : Tup τ) {c : Cols τ} {l : List (Tup τ)} (h : Rows c l) {as : List (Call τ)} {r : Option (List (Tup τ))} (hr : Runs dflt l as r) :
    match r with
    | some l' => ∃ c', as.foldlM (call dflt) c = .ok c' ∧ Rows c' l'
    | none => as.foldlM (call dflt) c = .error .outOfBounds := by
  induction hr generalizing c with
  | done l => exact ⟨c, rfl, h⟩
  | @out l a op as hm ho =>
    have := call_rows (dflt := dflt) h hm (by
      rintro attrs xs rfl rfl
      cases ho)
    rw [ho] at this
    rw [List.foldlM_cons, this]
    rfl
  | @step l l' a op as r hm hcopy ho hr ih =>
    have := call_rows (dflt := dflt) h hm hcopy
    rw [ho] at this
    obtain ⟨c', h1, h2⟩ := this
    have hf : (a :: as).foldlM (call dflt) c = as.foldlM (call dflt) c' := by rw [List.foldlM_cons, h1]; rfl
    rw [hf]
    cases r <;> exact ih h2

/-- **C135.** The constructors: no tuples, `M` default tuples, and the given ones. -/
theorem soa_constructors (dflt : Tup τ) (M : Nat) (l : List (Tup τ)) : Rows (empty : Cols τ) [] ∧ Rows (ofSize dflt M) (List.replicate M dflt) ∧ Rows (ofList l) l ∧ Rows (ofColumns (fun i => l.map (· i))) l := by
  refine ⟨fun _ => rfl, fun i => by rw [List.map_replicate]; rfl, ?_, fun _ => rfl⟩
  have key : ∀ (l' : List (Tup τ)) (c : Cols τ) (pre : List (Tup τ)), Rows c pre → Rows (l'.foldl pushBack c) (pre ++ l') := by
    intro l'
    induction l' with
    | nil => intro c pre h; simpa using h
    | cons x l' ih =>
      intro c pre h
      have := ih (pushBack c x) (pre ++ [x]) (fun i => by show c i ++ [x i] = _; rw [h i]; simp)
      simpa using this
  exact key l _ [] (fun _ => rfl)

/-- **C135.** `size()` and `operator[]` afterwards. -/
theorem soa_reads {c : Cols τ} {l : List (Tup τ)} (h : Rows c l) : size c = l.length ∧ (∀ j (hj : j < l.length), Zip.read c j = .ok l[j]) ∧ ∀ j, l.length ≤ j → Zip.read c j = .error .outOfBounds := by
  refine ⟨h.length 0, ?_, ?_⟩
  · intro j hj
    have hall : ∀ i, j < (c i).length := fun i => by rw [h.length i]; exact hj
    unfold Zip.read
    rw [dif_pos hall]
    congr 1
    funext i
    have : (c i)[j]'(hall i) = (l.map (· i))[j]'(by simpa using hj) := by simp only [h i]
    rw [this]; simp
  · intro j hj
    unfold Zip.read
    rw [dif_neg (fun hall => by have := hall 0; rw [h.length 0] at this; omega)]

/-- **C135.** `move` leaves what was there in its arguments. -/
theorem soa_move {c attrs : Cols τ} {l xs : List (Tup τ)} (h : Rows c l) (hx : Rows attrs xs) : Rows (move c attrs).1 xs ∧ Rows (move c attrs).2 l := ⟨hx, h⟩

/-- **C135, false of the code:** `copy` of fewer elements keeps the old ones behind them. -/
theorem soa_copy_short_wrong {c attrs : Cols τ} {l xs : List (Tup τ)} (h : Rows c l) (hx : Rows attrs xs) (hl : xs.length < l.length) :
    ∃ c', copy c attrs = .ok c' ∧ Rows c' (xs ++ l.drop xs.length) ∧ ¬ Rows c' xs := by
  have h1 : Rows (fun i => attrs i ++ (c i).drop (attrs i).length) (xs ++ l.drop xs.length) := by
    intro i
    show attrs i ++ (c i).drop (attrs i).length = _
    rw [hx.length i, hx i, h i, List.map_append, List.map_drop]
  refine ⟨_, ?_, h1, ?_⟩
  · unfold copy
    rw [if_pos (fun i => by rw [hx.length i, h.length i]; omega)]
  · intro h2
    have := congrArg List.length (h1.unique h2)
    simp at this
    omega

/-- **C135, false of the code:** `copy` of more elements writes past the end. -/
theorem soa_copy_long_wrong {c attrs : Cols τ} {l xs : List (Tup τ)} (h : Rows c l) (hx : Rows attrs xs) (hl : l.length < xs.length) : copy c attrs = .error .outOfBounds := by
  unfold copy
  rw [if_neg (fun hall => by have := hall 0; rw [hx.length 0, h.length 0] at this; omega)]

/-- **C135, false of the code:** vectors of different lengths are accepted, and then there are no tuples. -/
theorem soa_columns_wrong (l : Cols τ) (i : Fin (k + 1)) (h : (l i).length ≠ (l 0).length) : ¬ ∃ xs, Rows (ofColumns l) xs := by
  rintro ⟨xs, hx⟩
  exact h ((hx.length i).trans (hx.length 0).symm)

/-! ## A concrete case: a column of numbers and one of truth values -/

def exTypes : Fin 2 → Type
  | 0 => Nat
  | 1 => Bool

def exTup (a : Nat) (b : Bool) : Tup exTypes
  | 0 => a
  | 1 => b

example : Runs (exTup 0 false) [] [.pushBack (exTup 3 true), .resize 3, .pushAt 1 (exTup 5 true), .pushAt 7 (exTup 5 true)] none :=
  .step (.pushBack _) (by intro _ _ h; cases h) rfl (.step (.resize 3) (by intro _ _ h; cases h) rfl (.step (.pushAt 1 _) (by intro _ _ h; cases h) rfl (.out [] (.pushAt 7 _) rfl)))

example : Runs (exTup 0 false) [exTup 1 true] [.copy (fun i => [exTup 2 false].map (· i)), .clear, .pushBack (exTup 4 true)] (some [exTup 4 true]) :=
  .step (.copy (xs := [exTup 2 false]) (fun _ => rfl)) (by intro _ _ _ h; cases h; rfl) rfl (.step .clear (by intro _ _ h; cases h) rfl (.step (.pushBack _) (by intro _ _ h; cases h) rfl (.done _)))

end NW.Soa
