import Verif.Model.Shared
import Mathlib.Order.Lattice
import Mathlib.Order.MinMax
import Mathlib.Algebra.BigOperators.Group.List.Basic
import Mathlib.Data.Prod.Lex

/-!
# C120: shared minimum, sum and counters lose no update
-/

namespace NW.Shared

variable {V B : Type}

/-! ## The specification: the calls one after another -/

/-- A log lists calls in the order in which they take effect: the thread, the argument, what the call returns.  `Serial upd x l y`: made one after another on a location with the value `x`, the calls
return what the log says, true exactly if they change the value, and leave `y`. -/
inductive Serial (upd : V → B → Option V) : V → List (Nat × B × Bool) → V → Prop
  | nil (x : V) : Serial upd x [] x
  | keep {x y : V} {i : Nat} {b : B} {l : List (Nat × B × Bool)} (hu : upd x b = none) (h : Serial upd x l y) : Serial upd x ((i, b, false) :: l) y
  | write {x v y : V} {i : Nat} {b : B} {l : List (Nat × B × Bool)} (hu : upd x b = some v) (h : Serial upd v l y) : Serial upd x ((i, b, true) :: l) y

/-- The calls of thread `i` in a log. -/
def callsOf (i : Nat) (l : List (Nat × B × Bool)) : List (B × Bool) := (l.filter fun e => decide (e.1 = i)).map Prod.snd

/-- `l` consists of the calls that the threads make, in the order of each thread, and says what they return. -/
def Merges (calls : List (List B)) (outs : List (List Bool)) (l : List (Nat × B × Bool)) : Prop :=
  outs.length = calls.length ∧ (∀ e ∈ l, e.1 < calls.length) ∧ ∀ i, i < calls.length → (callsOf i l).map Prod.fst = calls.getD i [] ∧ (callsOf i l).map Prod.snd = outs.getD i []

/-! ## The invariant -/

theorem Serial.append {upd : V → B → Option V} {x y z : V} {l l' : List (Nat × B × Bool)} (h : Serial upd x l y) (h' : Serial upd y l' z) : Serial upd x (l ++ l') z := by
  induction h with
  | nil => exact h'
  | keep hu _ ih => exact .keep hu (ih h')
  | write hu _ ih => exact .write hu (ih h')

theorem callsOf_append (i : Nat) (l l' : List (Nat × B × Bool)) : callsOf i (l ++ l') = callsOf i l ++ callsOf i l' := by simp [callsOf]

theorem callsOf_same (i : Nat) (b : B) (r : Bool) : callsOf i [(i, b, r)] = [(b, r)] := by simp [callsOf]

theorem callsOf_other {i j : Nat} (h : i ≠ j) (b : B) (r : Bool) : callsOf j [(i, b, r)] = [] := by simp [callsOf, h]

structure Inv (upd : V → B → Option V) (x0 : V) (calls : List (List B)) (s : State V B) (l : List (Nat × B × Bool)) : Prop where
  serial : Serial upd x0 l s.x
  len : s.ts.length = calls.length
  ids : ∀ e ∈ l, e.1 < calls.length
  thread : ∀ (i : Nat) (t : Thread V B), s.ts[i]? = some t → calls.getD i [] = (callsOf i l).map Prod.fst ++ t.todo ∧ t.out = (callsOf i l).map Prod.snd
  held : ∀ (i : Nat) (t : Thread V B) (c v : V), s.ts[i]? = some t → t.held = some (c, v) → ∃ b bs, t.todo = b :: bs ∧ upd c b = some v

theorem Inv.complete {upd : V → B → Option V} {x0 v : V} {calls : List (List B)} {s : State V B} {l : List (Nat × B × Bool)} (h : Inv upd x0 calls s l) {i : Nat} {b : B} {bs : List B}
    {held : Option (V × V)} {out : List Bool} {r : Bool} (hi : s.ts[i]? = some ⟨b :: bs, held, out⟩) (hs : Serial upd s.x [(i, b, r)] v) :
    Inv upd x0 calls ⟨v, s.ts.set i ⟨bs, none, out ++ [r]⟩⟩ (l ++ [(i, b, r)]) := by
  have hlt : i < s.ts.length := (List.getElem?_eq_some_iff.1 hi).1
  refine ⟨h.serial.append hs, by simp [h.len], ?_, ?_, ?_⟩
  · intro e he
    rcases List.mem_append.1 he with he | he
    · exact h.ids e he
    · rw [List.mem_singleton.1 he, ← h.len]; exact hlt
  · intro j t hj
    rcases getElem?_set_cases hj with ⟨rfl, rfl⟩ | ⟨hne, hj⟩
    · obtain ⟨h1, h2⟩ := h.thread _ _ hi
      simp only at h1 h2 ⊢
      rw [callsOf_append, callsOf_same, h1, h2]
      simp
    · rw [callsOf_append, callsOf_other hne, List.append_nil]
      exact h.thread j t hj
  · intro j t c w hj hh
    rcases getElem?_set_cases hj with ⟨rfl, rfl⟩ | ⟨hne, hj⟩
    · cases hh
    · exact h.held j t c w hj hh

theorem Inv.local {upd : V → B → Option V} {x0 : V} {calls : List (List B)} {s : State V B} {l : List (Nat × B × Bool)} (h : Inv upd x0 calls s l) {i : Nat} {b : B} {bs : List B}
    {held held' : Option (V × V)} {out : List Bool} (hi : s.ts[i]? = some ⟨b :: bs, held, out⟩) (hh' : ∀ c v, held' = some (c, v) → upd c b = some v) :
    Inv upd x0 calls ⟨s.x, s.ts.set i ⟨b :: bs, held', out⟩⟩ l := by
  refine ⟨h.serial, by simp [h.len], h.ids, ?_, ?_⟩
  · intro j t hj
    rcases getElem?_set_cases hj with ⟨rfl, rfl⟩ | ⟨hne, hj⟩
    · have := h.thread _ _ hi
      exact this
    · exact h.thread j t hj
  · intro j t c w hj hh
    rcases getElem?_set_cases hj with ⟨rfl, rfl⟩ | ⟨hne, hj⟩
    · exact ⟨b, bs, rfl, hh' c w hh⟩
    · exact h.held j t c w hj hh

/-- How far a thread is from a successful compare-and-swap: it has a value that is still the current one, has none, or has another one. -/
def work [DecidableEq V] (x : V) (t : Thread V B) : Nat :=
  match t.todo, t.held with
  | [], _ => 0
  | _ :: _, none => 2
  | _ :: _, some (c, _) => if c = x then 1 else 3

variable [DecidableEq V]

/-- The measure: calls to be made, then the work before the next success. -/
def measure (s : State V B) : Nat ×ₗ Nat := toLex ((s.ts.map fun t => t.todo.length).sum, (s.ts.map (work s.x)).sum)

theorem sum_set_le {τ : Type} (w : τ → Nat) {ts : List τ} {i : Nat} {t t' : τ} (h : ts[i]? = some t) (hw : w t' = w t) : ((ts.set i t').map w).sum = (ts.map w).sum := by
  induction ts generalizing i with
  | nil => simp at h
  | cons x xs ih =>
    cases i with
    | zero => simp only [List.getElem?_cons_zero, Option.some.injEq] at h; subst h; simp [hw]
    | succ i => simp only [List.getElem?_cons_succ] at h; simp only [List.set_cons_succ, List.map_cons, List.sum_cons, ih h]

theorem measure_call {s : State V B} {i : Nat} {t t' : Thread V B} {v : V} (h : s.ts[i]? = some t) (hl : t'.todo.length < t.todo.length) : measure ⟨v, s.ts.set i t'⟩ < measure s :=
  Prod.Lex.left _ _ (sum_map_set_lt _ h hl)

theorem measure_local {s : State V B} {i : Nat} {t t' : Thread V B} (h : s.ts[i]? = some t) (hl : t'.todo = t.todo) (hw : work s.x t' < work s.x t) : measure ⟨s.x, s.ts.set i t'⟩ < measure s := by
  unfold measure
  rw [sum_set_le (fun t : Thread V B => t.todo.length) h (by rw [hl])]
  exact Prod.Lex.right _ (sum_map_set_lt _ h hw)

/-- C120. Any number of threads, any lists of calls, any interleaving: no step is undefined, there is no infinite run, and in the end the calls have had the effect, and have returned the values, that they would have had
if they had been made one after another in some order that keeps the order of each thread. -/
theorem cas_loops_serialise (upd : V → B → Option V) (x0 : V) (calls : List (List B)) :
    Sure (Step upd) (fun r => ∃ l, Merges calls r.2 l ∧ Serial upd x0 l r.1) (start x0 calls) := by
  refine Sure.of_inv (lt := (· < ·)) wellFounded_lt (measure (V := V) (B := B)) (fun s => ∃ l, Inv upd x0 calls s l) ?_ ?_ _ ?_
  · rintro s ⟨l, hI⟩
    by_cases h : ∀ t ∈ s.ts, t.todo = []
    · exact ⟨_, .done h⟩
    · push Not at h
      obtain ⟨t, ht, hne⟩ := h
      obtain ⟨i, hi, rfl⟩ := List.mem_iff_getElem.1 ht
      have hi' : s.ts[i]? = some s.ts[i] := List.getElem?_eq_getElem hi
      cases ht : s.ts[i] with
      | mk todo held out =>
        rw [ht] at hi' hne
        cases todo with
        | nil => exact absurd rfl hne
        | cons b bs =>
          cases held with
          | none =>
            cases hu : upd s.x b with
            | none => exact ⟨_, .skip hi' hu⟩
            | some v => exact ⟨_, .read hi' hu⟩
          | some cv =>
            by_cases hc : s.x = cv.1
            · exact ⟨_, .swap hi' hc⟩
            · exact ⟨_, .fail hi' hc⟩
  · rintro s o ⟨l, hI⟩ hst
    cases hst with
    | skip h hu => exact .inl ⟨_, rfl, ⟨_, hI.complete h (.keep hu (.nil _))⟩, measure_call h (by simp)⟩
    | read h hu => exact .inl ⟨_, rfl, ⟨_, hI.local h (fun c v hc => by cases hc; exact hu)⟩, measure_local h rfl (by simp [work])⟩
    | swap h hc =>
      obtain ⟨b, bs, hb, hu⟩ := hI.held _ _ _ _ h rfl
      cases hb
      exact .inl ⟨_, rfl, ⟨_, hI.complete h (.write (hc ▸ hu) (.nil _))⟩, measure_call h (by simp)⟩
    | fail h hc => exact .inl ⟨_, rfl, ⟨_, hI.local h (fun c v hc => by cases hc)⟩, measure_local h rfl (by simp [work, Ne.symm hc])⟩
    | done h =>
      refine .inr ⟨_, rfl, l, ⟨by simp [hI.len], hI.ids, fun i hi => ?_⟩, hI.serial⟩
      have hi' : i < s.ts.length := by rw [hI.len]; exact hi
      obtain ⟨h1, h2⟩ := hI.thread i _ (List.getElem?_eq_getElem hi')
      rw [h _ (List.getElem_mem hi'), List.append_nil] at h1
      refine ⟨h1.symm, ?_⟩
      rw [← h2, List.getD_eq_getElem?_getD, List.getElem?_map, List.getElem?_eq_getElem hi']
      rfl
  · refine ⟨[], .nil _, by simp [start], by simp, ?_, ?_⟩
    · intro i t ht
      simp only [start, List.getElem?_map, Option.map_eq_some_iff] at ht
      obtain ⟨bs, hbs, rfl⟩ := ht
      simp [callsOf, List.getD_eq_getElem?_getD, hbs]
    · intro i t c v ht hh
      simp only [start, List.getElem?_map, Option.map_eq_some_iff] at ht
      obtain ⟨bs, hbs, rfl⟩ := ht
      cases hh

/-! ## The minimum and the sum -/

omit [DecidableEq V] in
/-- The arguments in the log are those of the threads. -/
theorem Merges.mem {calls : List (List B)} {outs : List (List Bool)} {l : List (Nat × B × Bool)} (h : Merges calls outs l) (b : B) :
    (∃ i r, (i, b, r) ∈ l) ↔ b ∈ calls.flatten := by
  have key : ∀ i b, b ∈ (callsOf i l).map Prod.fst ↔ ∃ r, (i, b, r) ∈ l := by
    intro i b
    simp only [callsOf, List.mem_map, List.mem_filter, decide_eq_true_eq]
    constructor
    · rintro ⟨_, ⟨⟨j, b', r⟩, ⟨h1, rfl⟩, rfl⟩, rfl⟩; exact ⟨r, h1⟩
    · rintro ⟨r, hr⟩; exact ⟨(b, r), ⟨(i, b, r), ⟨hr, rfl⟩, rfl⟩, rfl⟩
  rw [List.mem_flatten]
  constructor
  · rintro ⟨i, r, hr⟩
    have hi := h.2.1 _ hr
    refine ⟨calls.getD i [], ?_, ?_⟩
    · rw [List.getD_eq_getElem?_getD, List.getElem?_eq_getElem hi]; exact List.getElem_mem hi
    · rw [← (h.2.2 i hi).1]; exact (key i b).2 ⟨r, hr⟩
  · rintro ⟨bs, hbs, hb⟩
    obtain ⟨i, hi, rfl⟩ := List.mem_iff_getElem.1 hbs
    obtain ⟨r, hr⟩ := (key i b).1 (by rw [(h.2.2 i hi).1, List.getD_eq_getElem?_getD, List.getElem?_eq_getElem hi]; exact hb)
    exact ⟨i, r, hr⟩

omit [DecidableEq V] in
/-- The results in the log are those of the threads. -/
theorem Merges.mem_out {calls : List (List B)} {outs : List (List Bool)} {l : List (Nat × B × Bool)} (h : Merges calls outs l) (r : Bool) :
    (∃ i b, (i, b, r) ∈ l) ↔ r ∈ outs.flatten := by
  have key : ∀ i r, r ∈ (callsOf i l).map Prod.snd ↔ ∃ b, (i, b, r) ∈ l := by
    intro i r
    simp only [callsOf, List.mem_map, List.mem_filter, decide_eq_true_eq]
    constructor
    · rintro ⟨_, ⟨⟨j, b', r⟩, ⟨h1, rfl⟩, rfl⟩, rfl⟩; exact ⟨b', h1⟩
    · rintro ⟨b, hr⟩; exact ⟨(b, r), ⟨(i, b, r), ⟨hr, rfl⟩, rfl⟩, rfl⟩
  rw [List.mem_flatten]
  constructor
  · rintro ⟨i, b, hr⟩
    have hi := h.2.1 _ hr
    refine ⟨outs.getD i [], ?_, ?_⟩
    · have hi : i < outs.length := by rw [h.1]; exact hi
      rw [List.getD_eq_getElem?_getD, List.getElem?_eq_getElem hi]; exact List.getElem_mem hi
    · rw [← (h.2.2 i hi).2]; exact (key i r).2 ⟨b, hr⟩
  · rintro ⟨bs, hbs, hb⟩
    obtain ⟨i, hi, rfl⟩ := List.mem_iff_getElem.1 hbs
    obtain ⟨b, hr⟩ := (key i r).1 (by rw [(h.2.2 i (h.1 ▸ hi)).2, List.getD_eq_getElem?_getD, List.getElem?_eq_getElem hi]; exact hb)
    exact ⟨i, b, hr⟩

theorem serial_min {V : Type} [LinearOrder V] {x y : V} {l : List (Nat × V × Bool)} (h : Serial updMin x l y) :
    y ≤ x ∧ (∀ i b r, (i, b, r) ∈ l → y ≤ b) ∧ (y = x ∨ ∃ i, (i, y, true) ∈ l) ∧ ((∃ i b, (i, b, true) ∈ l) ↔ y < x) := by
  induction h with
  | nil x => exact ⟨le_refl _, by simp, .inl rfl, by simp⟩
  | @keep x y i b l hu _ ih =>
    obtain ⟨h1, h2, h3, h4⟩ := ih
    have hb : x ≤ b := by
      unfold updMin at hu
      split at hu
      · cases hu
      · exact not_lt.1 ‹_›
    refine ⟨h1, ?_, ?_, ?_⟩
    · intro j c r hm
      rcases List.mem_cons.1 hm with hm | hm
      · cases hm; exact le_trans h1 hb
      · exact h2 j c r hm
    · rcases h3 with h3 | ⟨j, hj⟩
      · exact .inl h3
      · exact .inr ⟨j, List.mem_cons_of_mem _ hj⟩
    · rw [← h4]
      simp
  | @write x v y i b l hu _ ih =>
    obtain ⟨h1, h2, h3, h4⟩ := ih
    have hb : b < x ∧ v = b := by
      unfold updMin at hu
      split at hu
      · cases hu; exact ⟨‹_›, rfl⟩
      · cases hu
    obtain ⟨hb, rfl⟩ := hb
    refine ⟨le_trans h1 hb.le, ?_, ?_, ?_⟩
    · intro j c r hm
      rcases List.mem_cons.1 hm with hm | hm
      · cases hm; exact h1
      · exact h2 j c r hm
    · rcases h3 with rfl | ⟨j, hj⟩
      · exact .inr ⟨i, by simp⟩
      · exact .inr ⟨j, List.mem_cons_of_mem _ hj⟩
    · exact ⟨fun _ => lt_of_le_of_lt h1 hb, fun _ => ⟨i, v, by simp⟩⟩

/-- C120. `writeMin` by any number of threads ends with the least of the value before and all the arguments; some call returns true exactly if the value has become smaller. -/
theorem write_min_correct {V : Type} [LinearOrder V] (x0 : V) (calls : List (List V)) :
    Sure (Step updMin) (fun r => (r.1 = x0 ∨ r.1 ∈ calls.flatten) ∧ r.1 ≤ x0 ∧ (∀ b ∈ calls.flatten, r.1 ≤ b) ∧ (true ∈ r.2.flatten ↔ r.1 < x0)) (start x0 calls) := by
  refine (cas_loops_serialise updMin x0 calls).mono ?_
  rintro ⟨y, outs⟩ ⟨l, hm, hs⟩
  obtain ⟨h1, h2, h3, h4⟩ := serial_min hs
  refine ⟨?_, h1, fun b hb => ?_, ?_⟩
  · rcases h3 with h3 | ⟨i, hi⟩
    · exact .inl h3
    · exact .inr ((hm.mem y).1 ⟨i, true, hi⟩)
  · obtain ⟨i, r, hr⟩ := (hm.mem b).2 hb
    exact h2 i b r hr
  · rw [← hm.mem_out true]
    exact h4

/-- C120. `writeMin` with a comparison that is the opposite of the order, such as `std::greater`, ends with the greatest. -/
theorem write_max_correct {V : Type} [LinearOrder V] (x0 : V) (calls : List (List V)) :
    Sure (Step (updLess fun a b => decide (b < a))) (fun r => (r.1 = x0 ∨ r.1 ∈ calls.flatten) ∧ x0 ≤ r.1 ∧ (∀ b ∈ calls.flatten, b ≤ r.1) ∧ (true ∈ r.2.flatten ↔ x0 < r.1)) (start x0 calls) := by
  have h := write_min_correct (V := Vᵒᵈ) x0 calls
  have e : (updLess fun a b : V => decide (b < a)) = (updMin : Vᵒᵈ → Vᵒᵈ → Option Vᵒᵈ) := by
    funext c b
    unfold updLess updMin
    exact if_congr decide_eq_true_iff rfl rfl
  rw [e]
  exact h

omit [DecidableEq V] in
theorem merges_perm {calls : List (List B)} {outs : List (List Bool)} {l : List (Nat × B × Bool)} (h : Merges calls outs l) : (l.map fun e => e.2.1).Perm calls.flatten := by
  obtain ⟨h1, h2, h3⟩ := h
  have key : ∀ (n : Nat) (l : List (Nat × B × Bool)), (∀ e ∈ l, e.1 < n) → (l.map fun e => e.2.1).Perm ((List.range n).flatMap fun i => (callsOf i l).map Prod.fst) := by
    intro n
    induction n with
    | zero =>
      intro l hl
      cases l with
      | nil => simp
      | cons e l => exact absurd (hl e (by simp)) (by omega)
    | succ n ih =>
      intro l hl
      have hp : ((l.filter fun e => decide (e.1 < n)) ++ (l.filter fun e => !decide (e.1 < n))).Perm l := List.filter_append_perm _ l
      have e1 := ih (l.filter fun e => decide (e.1 < n)) (by simp)
      rw [List.range_succ, List.flatMap_append]
      refine (hp.symm.map _).trans ?_
      rw [List.map_append]
      refine List.Perm.append (e1.trans (List.Perm.of_eq ?_)) (List.Perm.of_eq ?_)
      · refine List.flatMap_congr fun i hi => ?_
        have hi := List.mem_range.1 hi
        unfold callsOf
        rw [List.filter_filter]
        congr 2
        refine List.filter_congr fun e _ => ?_
        by_cases h : e.1 = i <;> simp [h, hi]
      · simp only [List.flatMap_cons, List.flatMap_nil, List.append_nil]
        unfold callsOf
        rw [List.map_map]
        congr 1
        refine List.filter_congr fun e he => ?_
        have := hl e he
        by_cases h : e.1 = n
        · simp [h]
        · have : e.1 < n := by omega
          simp [h, this]
  refine (key calls.length l h2).trans (List.Perm.of_eq ?_)
  have : ((List.range calls.length).flatMap fun i => (callsOf i l).map Prod.fst) = (List.range calls.length).flatMap fun i => calls.getD i [] :=
    List.flatMap_congr fun i hi => (h3 i (List.mem_range.1 hi)).1
  rw [this, List.flatMap_def]
  congr 1
  refine List.ext_getElem (by simp) fun i hi hi' => ?_
  simp [List.getD_eq_getElem?_getD, List.getElem?_eq_getElem hi']

theorem serial_add {V : Type} [AddCommMonoid V] {x y : V} {l : List (Nat × V × Bool)} (h : Serial updAdd x l y) : y = x + (l.map fun e => e.2.1).sum := by
  induction h with
  | nil x => simp
  | keep hu _ _ => cases hu
  | @write x v y i b l hu _ ih =>
    cases hu
    rw [ih]
    simp [add_assoc]

/-- C120. `writeAdd` by any number of threads adds all the arguments. -/
theorem write_add_correct {V : Type} [DecidableEq V] [AddCommMonoid V] (x0 : V) (calls : List (List V)) :
    Sure (Step updAdd) (fun r => r.1 = x0 + calls.flatten.sum) (start x0 calls) := by
  refine (cas_loops_serialise updAdd x0 calls).mono ?_
  rintro ⟨y, outs⟩ ⟨l, hm, hs⟩
  rw [serial_add hs, (merges_perm hm).sum_eq]

/-! ## The counters -/

/-- The assignments that remain, where one that has been stored counts as made. -/
def left : Nat × Phase → Nat
  | (n, .stored) => n - 1
  | (n, _) => n

/-- The steps that remain. -/
def steps : Nat × Phase → Nat
  | (n, .out) => 4 * n
  | (n, .locked) => 4 * n - 1
  | (n, .loaded _) => 4 * n - 2
  | (n, .stored) => 4 * n - 3

structure CountInv (total : Nat) (s : Count) : Prop where
  sum : s.count + (s.ts.map left).sum = total
  pos : ∀ (i n : Nat) (p : Phase), s.ts[i]? = some (n, p) → p ≠ .out → 0 < n ∧ s.mtx = some i
  cur : ∀ (i n v : Nat), s.ts[i]? = some (n, .loaded v) → v = s.count
  holds : ∀ i, s.mtx = some i → ∃ n p, s.ts[i]? = some (n, p) ∧ p ≠ .out

theorem sum_set_add {τ : Type} (w : τ → Nat) {ts : List τ} {i : Nat} {t t' : τ} (h : ts[i]? = some t) : ((ts.set i t').map w).sum + w t = (ts.map w).sum + w t' := by
  induction ts generalizing i with
  | nil => simp at h
  | cons x xs ih =>
    cases i with
    | zero => simp only [List.getElem?_cons_zero, Option.some.injEq] at h; subst h; simp; omega
    | succ i =>
      simp only [List.getElem?_cons_succ] at h
      have := ih h
      simp only [List.set_cons_succ, List.map_cons, List.sum_cons]
      omega

/-- C120. Threads that assign to `par_counting_output_iterator`s on one counter lose no count: however they are scheduled, they all finish and the counter has grown by the number of assignments. -/
theorem mutex_counter_correct (c : Nat) (ns : List Nat) : Sure MutexStep (fun r => r = c + ns.sum) (startCount c ns) := by
  refine Sure.of_inv (lt := (· < ·)) wellFounded_lt (fun s : Count => (s.ts.map steps).sum) (CountInv (c + ns.sum)) ?_ ?_ _ ?_
  · intro s hI
    by_cases h : ∀ t ∈ s.ts, t = (0, .out)
    · exact ⟨_, .done h⟩
    · cases hm : s.mtx with
      | some i =>
        obtain ⟨n, p, hi, hp⟩ := hI.holds i hm
        cases p with
        | out => exact absurd rfl hp
        | locked => exact ⟨_, .load hi⟩
        | loaded v => exact ⟨_, .store hi⟩
        | stored => exact ⟨_, .unlock hi⟩
      | none =>
        push Not at h
        obtain ⟨⟨n, p⟩, ht, hne⟩ := h
        obtain ⟨i, hi, he⟩ := List.mem_iff_getElem.1 ht
        have hi' : s.ts[i]? = some (n, p) := by rw [List.getElem?_eq_getElem hi, he]
        have hp : p = .out := by
          by_contra hp
          have := (hI.pos i n p hi' hp).2
          rw [hm] at this; cases this
        subst hp
        cases n with
        | zero => exact absurd rfl hne
        | succ n => exact ⟨_, .lock hi' hm⟩
  · intro s o hI hst
    have other : ∀ {i j n n' : Nat} {p p' : Phase}, s.ts[i]? = some (n, p) → p ≠ .out → s.ts[j]? = some (n', p') → i ≠ j → p' = .out := by
      intro i j n n' p p' hi hp hj hne
      by_contra hp'
      have h1 := (hI.pos i n p hi hp).2
      have h2 := (hI.pos j n' p' hj hp').2
      rw [h1] at h2
      exact hne (Option.some.inj h2)
    cases hst with
    | @lock i n h hm =>
      have hout : ∀ (j n' : Nat) (p' : Phase), s.ts[j]? = some (n', p') → p' = Phase.out := by
        intro j n' p' hj
        by_contra hp
        have := (hI.pos j n' p' hj hp).2
        rw [hm] at this; cases this
      refine .inl ⟨_, rfl, ⟨?_, ?_, ?_, ?_⟩, sum_map_set_lt _ h (by simp only [steps]; omega)⟩
      · have := sum_set_add left h (t' := (n + 1, .locked))
        have := hI.sum
        simp only [left] at *
        omega
      · intro j n' p' hj hp
        rcases getElem?_set_cases hj with ⟨rfl, he⟩ | ⟨hne, hj⟩
        · cases he; exact ⟨Nat.succ_pos _, rfl⟩
        · exact absurd (hout j n' p' hj) hp
      · intro j n' v hj
        rcases getElem?_set_cases hj with ⟨rfl, he⟩ | ⟨hne, hj⟩
        · cases he
        · cases hout j n' _ hj
      · intro j hj
        cases hj
        exact ⟨_, _, getElem?_set_same h, by simp⟩
    | @load i n h =>
      refine .inl ⟨_, rfl, ⟨?_, ?_, ?_, ?_⟩, sum_map_set_lt _ h (by have := (hI.pos _ _ _ h (by simp)).1; simp only [steps]; omega)⟩
      · have := sum_set_add left h (t' := (n, .loaded s.count))
        have := hI.sum
        simp only [left] at *
        omega
      · intro j n' p' hj hp
        rcases getElem?_set_cases hj with ⟨rfl, he⟩ | ⟨hne, hj⟩
        · cases he; exact hI.pos _ _ _ h (by simp)
        · exact hI.pos j n' p' hj hp
      · intro j n' v hj
        rcases getElem?_set_cases hj with ⟨rfl, he⟩ | ⟨hne, hj⟩
        · cases he; rfl
        · exact hI.cur j n' v hj
      · intro j hj
        have : j = i := by
          have h1 := (hI.pos _ _ _ h (by simp)).2
          have hj : s.mtx = some j := hj
          rw [h1] at hj; exact (Option.some.inj hj).symm
        subst this
        exact ⟨_, _, getElem?_set_same h, by simp⟩
    | @store i n v h =>
      have hv := hI.cur _ _ _ h
      subst hv
      refine .inl ⟨_, rfl, ⟨?_, ?_, ?_, ?_⟩, sum_map_set_lt _ h (by have := (hI.pos _ _ _ h (by simp)).1; simp only [steps]; omega)⟩
      · have h1 := sum_set_add left h (t' := (n, .stored))
        have h2 := hI.sum
        have h3 := (hI.pos _ _ _ h (by simp)).1
        simp only [left] at *
        omega
      · intro j n' p' hj hp
        rcases getElem?_set_cases hj with ⟨rfl, he⟩ | ⟨hne, hj⟩
        · cases he; exact hI.pos _ _ _ h (by simp)
        · exact hI.pos j n' p' hj hp
      · intro j n' w hj
        rcases getElem?_set_cases hj with ⟨rfl, he⟩ | ⟨hne, hj⟩
        · cases he
        · exact absurd (other h (by simp) hj hne) (by simp)
      · intro j hj
        have : j = i := by
          have h1 := (hI.pos _ _ _ h (by simp)).2
          have hj : s.mtx = some j := hj
          rw [h1] at hj; exact (Option.some.inj hj).symm
        subst this
        exact ⟨_, _, getElem?_set_same h, by simp⟩
    | @unlock i n h =>
      refine .inl ⟨_, rfl, ⟨?_, ?_, ?_, ?_⟩, sum_map_set_lt _ h (by have := (hI.pos _ _ _ h (by simp)).1; simp only [steps]; omega)⟩
      · have h1 := sum_set_add left h (t' := (n - 1, .out))
        have h2 := hI.sum
        simp only [left] at *
        omega
      · intro j n' p' hj hp
        rcases getElem?_set_cases hj with ⟨rfl, he⟩ | ⟨hne, hj⟩
        · cases he; exact absurd rfl hp
        · exact absurd (other h (by simp) hj hne) hp
      · intro j n' w hj
        rcases getElem?_set_cases hj with ⟨rfl, he⟩ | ⟨hne, hj⟩
        · cases he
        · exact absurd (other h (by simp) hj hne) (by simp)
      · intro j hj
        cases hj
    | done h =>
      refine .inr ⟨_, rfl, ?_⟩
      have h2 := hI.sum
      have : (s.ts.map left).sum = 0 := by
        rw [List.map_congr_left (g := fun _ => 0) fun t ht => by rw [h t ht]; rfl]
        simp
      omega
  · refine ⟨?_, ?_, ?_, ?_⟩
    · simp only [startCount, List.map_map]
      congr 2
      exact List.map_id' ns
    · intro i n p hi hp
      simp only [startCount, List.getElem?_map, Option.map_eq_some_iff, Prod.mk.injEq] at hi
      obtain ⟨_, _, _, rfl⟩ := hi
      exact absurd rfl hp
    · intro i n v hi
      simp only [startCount, List.getElem?_map, Option.map_eq_some_iff, Prod.mk.injEq] at hi
      obtain ⟨_, _, _, h⟩ := hi
      cases h
    · intro i hi
      cases hi

/-- C120. So do threads that assign to `atomic_counting_output_iterator`s. -/
theorem atomic_counter_correct (c : Nat) (ns : List Nat) : Sure AtomicStep (fun r => r = c + ns.sum) (startCount c ns) := by
  refine Sure.of_inv (lt := (· < ·)) wellFounded_lt (fun s : Count => (s.ts.map left).sum) (fun s => s.count + (s.ts.map left).sum = c + ns.sum ∧ ∀ t ∈ s.ts, t.2 = .out) ?_ ?_ _ ?_
  · rintro s ⟨-, hI⟩
    by_cases h : ∀ t ∈ s.ts, t = (0, .out)
    · exact ⟨_, .done h⟩
    · push Not at h
      obtain ⟨⟨n, p⟩, ht, hne⟩ := h
      obtain ⟨i, hi, he⟩ := List.mem_iff_getElem.1 ht
      have hp : p = .out := hI _ ht
      subst hp
      cases n with
      | zero => exact absurd rfl hne
      | succ n => exact ⟨_, .incr (by rw [List.getElem?_eq_getElem hi, he])⟩
  · rintro s o ⟨h1, h2⟩ hst
    cases hst with
    | @incr i n h =>
      refine .inl ⟨_, rfl, ⟨?_, fun t ht => ?_⟩, sum_map_set_lt _ h (by simp [left])⟩
      · have := sum_set_add left h (t' := (n, .out))
        simp only [left] at *
        omega
      · rcases List.mem_or_eq_of_mem_set ht with ht | rfl
        · exact h2 t ht
        · rfl
    | done h =>
      refine .inr ⟨_, rfl, ?_⟩
      have : (s.ts.map left).sum = 0 := by
        rw [List.map_congr_left (g := fun _ => 0) fun t ht => by rw [h t ht]; rfl]
        simp
      omega
  · refine ⟨?_, fun t ht => ?_⟩
    · simp only [startCount, List.map_map]
      congr 2
      exact List.map_id' ns
    · obtain ⟨n, -, rfl⟩ := List.mem_map.1 ht
      rfl

/-- C120. The plain `counting_output_iterator` is not for use by several threads: whatever the counter is, two threads that make one assignment each may count only one. -/
theorem plain_counter_loses (c : Nat) : Runs PlainStep (startCount c [1, 1]) (.ok (c + 1)) :=
  .step (.load (i := 0) (n := 0) rfl) (.step (.load (i := 1) (n := 0) rfl) (.step (.store (i := 0) (n := 1) (v := c) rfl) (.step (.store (i := 1) (n := 1) (v := c) rfl)
    (.done (.done (s := ⟨c + 1, none, [(0, .out), (0, .out)]⟩) (by simp))))))

/-- Three threads, five calls: the minimum is 2, some call changes the value. -/
example : Sure (Step updMin) (fun r => r.1 = 2 ∧ true ∈ r.2.flatten) (start 7 [[5, 9], [2], [3, 8]]) :=
  (write_min_correct 7 [[5, 9], [2], [3, 8]]).mono fun r h => by
    obtain ⟨h1, h2, h3, h4⟩ := h
    have a := h3 2 (by simp)
    have e : r.1 = 2 := by
      simp only [List.flatten_cons, List.flatten_nil, List.append_nil, List.cons_append, List.nil_append, List.mem_cons, List.not_mem_nil, or_false] at h1
      omega
    exact ⟨e, h4.2 (by omega)⟩

end NW.Shared
