import Verif.Model.DsetPar
import Verif.Props.DsetOut
import Mathlib.Order.WellFounded

/-! # Lemmas on concurrent calls of `unionBySizeAtomic` -/

namespace NW.DsetPar
open Splice (ent put)
open DisjointSet
open Dsu (getElem?_set_ite)

variable {n : Nat} {ρ dep : Nat → Nat}

/-- The element that gets a parent by the call of a thread. -/
def loser (ρ : Nat → Nat) (t : Thread) : Nat := if t.u < t.v then t.u else ρ t.v

/-- The parent that it gets. -/
def winner (ρ : Nat → Nat) (t : Thread) : Nat := if t.u < t.v then ρ t.v else t.u

/-- A thread that is done and has joined two sets. -/
def Fin (ρ : Nat → Nat) (ts : List Thread) (t : Thread) : Prop := t ∈ ts ∧ t.pc = .done ∧ t.u ≠ ρ t.v

/-- The roots are numbered by themselves and below the others. -/
structure Ranks (n : Nat) (ρ dep : Nat → Nat) : Prop where
  lt : ∀ x, x < n → ρ x < n
  idem : ∀ x, x < n → ρ (ρ x) = ρ x
  down : ∀ x, x < n → ρ x ≠ x → dep (ρ x) < dep x

/-- The arguments of the calls. -/
structure Args (n : Nat) (ρ : Nat → Nat) (ts : List Thread) : Prop where
  elems : ∀ t ∈ ts, t.u < n ∧ ρ t.u = t.u ∧ t.v < n
  apart : ∀ (i j : Nat) (t t' : Thread), i ≠ j → ts[i]? = some t → ts[j]? = some t' → ρ t.v ≠ ρ t'.v ∧ ρ t.v ≠ t'.u ∧ (t.u = t'.u → t.v ≤ t.u)

/-- What the entries are while the threads run. -/
structure Mem (n : Nat) (ρ dep : Nat → Nat) (ts : List Thread) (s : List Int) : Prop where
  len : s.length = n
  non : ∀ x, x < n → ρ x ≠ x → ∃ y : Nat, s[x]? = some (y : Int) ∧ y < n ∧ ρ y = ρ x ∧ dep y < dep x
  lost : ∀ t, Fin ρ ts t → s[loser ρ t]? = some (winner ρ t : Int)
  neg : ∀ x, x < n → ρ x = x → (∀ t, Fin ρ ts t → loser ρ t ≠ x) → ∃ k, s[x]? = some (Int.negSucc k)

/-- An element on the stack of a thread. -/
def Stk (n : Nat) (ρ : Nat → Nat) (t : Thread) (y : Int) : Prop := ∃ Y : Nat, y = (Y : Int) ∧ Y < n ∧ ρ Y = ρ t.v ∧ ρ Y ≠ Y

/-- What a thread knows. -/
def Good (n : Nat) (ρ : Nat → Nat) (t : Thread) : Prop :=
  match t.pc with
  | .start => True
  | .test st i => (∃ X : Nat, i = (X : Int) ∧ X < n ∧ ρ X = ρ t.v) ∧ ∀ y ∈ st, Stk n ρ t y
  | .take st i => Stk n ρ t i ∧ ∀ y ∈ st, Stk n ρ t y
  | .write st r => r = (ρ t.v : Int) ∧ ∀ y ∈ st, Stk n ρ t y
  | .found r => r = (ρ t.v : Int)
  | .half r a => r = (ρ t.v : Int) ∧ t.u ≠ ρ t.v ∧ a < 0
  | .add r a b => r = (ρ t.v : Int) ∧ t.u ≠ ρ t.v ∧ a < 0 ∧ b < 0
  | .swap r a b _ => r = (ρ t.v : Int) ∧ t.u ≠ ρ t.v ∧ a < 0 ∧ b < 0
  | .link r => r = (ρ t.v : Int) ∧ t.u ≠ ρ t.v
  | .done => True

/-- The invariant. -/
structure Inv (n : Nat) (ρ dep : Nat → Nat) (st : State) : Prop where
  args : Args n ρ st.ts
  mem : Mem n ρ dep st.ts st.s
  good : ∀ t ∈ st.ts, Good n ρ t

/-- How far a thread is from its end, without the loop of `writeAdd`. -/
def weight (dep : Nat → Nat) (t : Thread) : Nat :=
  match t.pc with
  | .start => 20 + 3 * dep t.v + 3
  | .test st i => 20 + 3 * dep i.toNat + 2 + st.length
  | .take st i => 20 + 3 * dep i.toNat + 1 + st.length
  | .write st _ => 20 + st.length + 1
  | .found _ => 20
  | .half _ _ => 19
  | .add _ _ _ => 18
  | .swap _ _ _ _ => 18
  | .link _ => 17
  | .done => 0

open Classical in
/-- How far a thread is from the end of the loop of `writeAdd`, if nobody interferes. -/
noncomputable def stale (s : List Int) (t : Thread) : Nat :=
  match t.pc with
  | .add _ _ _ => 1
  | .swap r a b old => if ent s (goal t r a b) = .ok old then 0 else 2
  | _ => 0

noncomputable def measure (dep : Nat → Nat) (st : State) : Nat × Nat := ((st.ts.map (weight dep)).sum, (st.ts.map (stale st.s)).sum)

theorem ent_nat {s : List Int} {x : Nat} {a : Int} (h : s[x]? = some a) : ent s (x : Int) = .ok a := vget_of_some h

theorem put_nat {s : List Int} {x : Nat} (a : Int) (h : x < s.length) : put s (x : Int) a = .ok (s.set x a) := vset_of_lt h

theorem args_set {ts : List Thread} (h : Args n ρ ts) {i : Nat} {t : Thread} (hi : ts[i]? = some t) (pc : Pc) : Args n ρ (ts.set i { t with pc := pc }) := by
  have key : ∀ (j : Nat) (x : Thread), (ts.set i { t with pc := pc })[j]? = some x → ∃ y, ts[j]? = some y ∧ y.u = x.u ∧ y.v = x.v := by
    intro j x hx
    rcases getElem?_set_cases hx with ⟨e, rfl⟩ | ⟨e, hx⟩
    · exact ⟨t, by rw [← e]; exact hi, rfl, rfl⟩
    · exact ⟨x, hx, rfl, rfl⟩
  refine ⟨fun x hx => ?_, fun j k x y hjk hx hy => ?_⟩
  · obtain ⟨j, hj⟩ := List.mem_iff_getElem?.1 hx
    obtain ⟨y, h1, h2, h3⟩ := key j x hj
    have := h.elems y (List.mem_of_getElem? h1)
    rw [h2, h3] at this
    exact this
  · obtain ⟨x', h1, h2, h3⟩ := key j x hx
    obtain ⟨y', g1, g2, g3⟩ := key k y hy
    have := h.apart j k x' y' hjk h1 g1
    rw [h2, h3, g2, g3] at this
    exact this

theorem fin_set {ts : List Thread} {i : Nat} {t : Thread} (hi : ts[i]? = some t) (hn : t.pc ≠ .done) {pc : Pc} (hp : pc ≠ .done ∨ t.u = ρ t.v) (x : Thread) :
    Fin ρ (ts.set i { t with pc := pc }) x ↔ Fin ρ ts x := by
  constructor
  · rintro ⟨h1, h2, h3⟩
    obtain ⟨j, hj⟩ := List.mem_iff_getElem?.1 h1
    rcases getElem?_set_cases hj with ⟨-, rfl⟩ | ⟨-, hx⟩
    · rcases hp with hp | hp
      · exact absurd h2 hp
      · exact absurd hp h3
    · exact ⟨List.mem_of_getElem? hx, h2, h3⟩
  · rintro ⟨h1, h2, h3⟩
    obtain ⟨j, hj⟩ := List.mem_iff_getElem?.1 h1
    refine ⟨List.mem_of_getElem? (i := j) ?_, h2, h3⟩
    rw [getElem?_set_other (by rintro rfl; rw [hi] at hj; cases hj; exact hn h2)]
    exact hj

theorem fin_link {ts : List Thread} {i : Nat} {t : Thread} (hi : ts[i]? = some t) (hn : t.pc ≠ .done) (hp : t.u ≠ ρ t.v) (x : Thread) :
    Fin ρ (ts.set i { t with pc := .done }) x ↔ Fin ρ ts x ∨ x = { t with pc := .done } := by
  constructor
  · rintro ⟨h1, h2, h3⟩
    obtain ⟨j, hj⟩ := List.mem_iff_getElem?.1 h1
    rcases getElem?_set_cases hj with ⟨-, rfl⟩ | ⟨-, hx⟩
    · exact Or.inr rfl
    · exact Or.inl ⟨List.mem_of_getElem? hx, h2, h3⟩
  · rintro (⟨h1, h2, h3⟩ | rfl)
    · obtain ⟨j, hj⟩ := List.mem_iff_getElem?.1 h1
      refine ⟨List.mem_of_getElem? (i := j) ?_, h2, h3⟩
      rw [getElem?_set_other (by rintro rfl; rw [hi] at hj; cases hj; exact hn h2)]
      exact hj
    · exact ⟨List.mem_of_getElem? (getElem?_set_same hi), rfl, hp⟩

/-- Nobody else gives a parent to the root that a thread works on. -/
theorem unlost {ts : List Thread} (ha : Args n ρ ts) {i : Nat} {t : Thread} (hi : ts[i]? = some t) (hn : t.pc ≠ .done) {x : Nat} (hx : x = t.u ∨ x = ρ t.v) (t' : Thread) (hf : Fin ρ ts t') :
    loser ρ t' ≠ x := by
  obtain ⟨h1, h2, h3⟩ := hf
  obtain ⟨j, hj⟩ := List.mem_iff_getElem?.1 h1
  have hij : j ≠ i := by rintro rfl; rw [hi] at hj; cases hj; exact hn h2
  obtain ⟨a1, a2, a3⟩ := ha.apart j i t' t hij hj hi
  obtain ⟨b1, b2, b3⟩ := ha.apart i j t t' (Ne.symm hij) hi hj
  unfold loser
  rcases hx with rfl | rfl
  · split
    · intro e; have := a3 e; omega
    · exact a2
  · split
    · exact fun e => b2 e.symm
    · exact a1

/-- The winner is nobody's loser. -/
theorem winner_kept {ts : List Thread} (ha : Args n ρ ts) {t t' : Thread} (hf : Fin ρ ts t) (hf' : Fin ρ ts t') : loser ρ t' ≠ winner ρ t := by
  obtain ⟨h1, -, h3⟩ := hf
  obtain ⟨h1', -, h3'⟩ := hf'
  obtain ⟨i, hi⟩ := List.mem_iff_getElem?.1 h1
  obtain ⟨j, hj⟩ := List.mem_iff_getElem?.1 h1'
  unfold loser winner
  by_cases hij : i = j
  · subst hij
    rw [hi] at hj; cases hj
    split
    · exact h3
    · exact fun e => h3 e.symm
  · obtain ⟨a1, a2, a3⟩ := ha.apart j i t' t (Ne.symm hij) hj hi
    obtain ⟨b1, b2, b3⟩ := ha.apart i j t t' hij hi hj
    split <;> split
    · exact fun e => b2 e.symm
    · intro e; have := a3 e; omega
    · exact a1
    · exact a2

theorem Mem.congr {ts ts' : List Thread} {s : List Int} (h : Mem n ρ dep ts s) (hf : ∀ x, Fin ρ ts' x ↔ Fin ρ ts x) : Mem n ρ dep ts' s :=
  ⟨h.len, h.non, fun t ht => h.lost t ((hf t).1 ht), fun x hx hr hl => h.neg x hx hr fun t ht => hl t ((hf t).2 ht)⟩

/-- An entry that is shortened. -/
theorem Mem.shortcut {ts : List Thread} {s : List Int} (hr : Ranks n ρ dep) (h : Mem n ρ dep ts s) (ha : Args n ρ ts) {x : Nat} (hx : x < n) (hne : ρ x ≠ x) : Mem n ρ dep ts (s.set x (ρ x : Int)) := by
  have hl : x < s.length := by rw [h.len]; exact hx
  have root : ∀ t, Fin ρ ts t → ρ (loser ρ t) = loser ρ t := by
    intro t ht
    obtain ⟨h1, h2, h3⟩ := ha.elems t ht.1
    unfold loser
    split
    · exact h2
    · exact hr.idem _ h3
  refine ⟨by simpa using h.len, fun y hy hn => ?_, fun t ht => ?_, fun y hy hyr hl' => ?_⟩
  · rw [getElem?_set_ite hl]
    split
    · rename_i e; subst e
      exact ⟨ρ x, rfl, hr.lt x hx, hr.idem x hx, hr.down x hx hne⟩
    · exact h.non y hy hn
  · rw [getElem?_set_ite hl, if_neg (by intro e; have := root t ht; rw [← e] at this; exact hne this)]
    exact h.lost t ht
  · rw [getElem?_set_ite hl, if_neg (by rintro rfl; exact hne hyr)]
    exact h.neg y hy hyr hl'

/-- The size of a root is changed. -/
theorem Mem.resize {ts : List Thread} {s : List Int} (h : Mem n ρ dep ts s) {x : Nat} (hx : x < n) (hne : ρ x = x) (hl : ∀ t, Fin ρ ts t → loser ρ t ≠ x) (k : Nat) :
    Mem n ρ dep ts (s.set x (Int.negSucc k)) := by
  have hxl : x < s.length := by rw [h.len]; exact hx
  refine ⟨by simpa using h.len, fun y hy hn => ?_, fun t ht => ?_, fun y hy hyr hl' => ?_⟩
  · rw [getElem?_set_ite hxl, if_neg (by rintro rfl; exact hn hne)]
    exact h.non y hy hn
  · rw [getElem?_set_ite hxl, if_neg (Ne.symm (hl t ht))]
    exact h.lost t ht
  · rw [getElem?_set_ite hxl]
    split
    · exact ⟨k, rfl⟩
    · exact h.neg y hy hyr hl'

/-- A root gets a parent. -/
theorem Mem.link {ts ts' : List Thread} {s : List Int} (h : Mem n ρ dep ts s) {t : Thread} (hx : loser ρ t < n) (hne : ρ (loser ρ t) = loser ρ t) (hl : ∀ t', Fin ρ ts t' → loser ρ t' ≠ loser ρ t)
    (hf : ∀ x, Fin ρ ts' x ↔ Fin ρ ts x ∨ x = t) : Mem n ρ dep ts' (s.set (loser ρ t) (winner ρ t : Int)) := by
  have hxl : loser ρ t < s.length := by rw [h.len]; exact hx
  refine ⟨by simpa using h.len, fun y hy hn => ?_, fun t' ht => ?_, fun y hy hyr hl' => ?_⟩
  · rw [getElem?_set_ite hxl, if_neg (by rintro rfl; exact hn hne)]
    exact h.non y hy hn
  · rw [getElem?_set_ite hxl]
    rcases (hf t').1 ht with ht | rfl
    · rw [if_neg (Ne.symm (hl t' ht))]
      exact h.lost t' ht
    · rw [if_pos rfl]
  · rw [getElem?_set_ite hxl, if_neg (hl' t ((hf t).2 (Or.inr rfl)))]
    exact h.neg y hy hyr fun t' ht => hl' t' ((hf t').2 (Or.inl ht))

theorem good_set {ts : List Thread} (h : ∀ t ∈ ts, Good n ρ t) (i : Nat) {t' : Thread} (ht : Good n ρ t') : ∀ t ∈ ts.set i t', Good n ρ t := by
  intro x hx
  rcases List.mem_or_eq_of_mem_set hx with hx | rfl
  · exact h x hx
  · exact ht

abbrev lexLt : Nat × Nat → Nat × Nat → Prop := Prod.Lex (· < ·) (· < ·)

theorem lexLt_wf : WellFounded lexLt := WellFounded.prod_lex Nat.lt_wfRel.wf Nat.lt_wfRel.wf

/-- What one step of a thread gives: it keeps the invariant and lowers the measure. -/
def Next (n : Nat) (ρ dep : Nat → Nat) (st : State) (i : Nat) (t : Thread) (o : Res (List Int × Pc)) : Prop :=
  ∃ s' pc, o = .ok (s', pc) ∧ Mem n ρ dep (st.ts.set i { t with pc := pc }) s' ∧ Good n ρ { t with pc := pc } ∧
    (weight dep { t with pc := pc } < weight dep t ∨ (weight dep { t with pc := pc } = weight dep t ∧ s' = st.s ∧ stale st.s { t with pc := pc } < stale st.s t))

theorem act_next {st : State} (hr : Ranks n ρ dep) (h : Inv n ρ dep st) {i : Nat} {t : Thread} (hi : st.ts[i]? = some t) (hn : t.pc ≠ .done) : Next n ρ dep st i t (act st.s t) := by
  have hm := List.mem_of_getElem? hi
  obtain ⟨hu, hur, hv⟩ := h.args.elems t hm
  have hg := h.good t hm
  obtain ⟨ku, hku⟩ := h.mem.neg t.u hu hur (unlost h.args hi hn (Or.inl rfl))
  obtain ⟨kv, hkv⟩ := h.mem.neg (ρ t.v) (hr.lt _ hv) (hr.idem _ hv) (unlost h.args hi hn (Or.inr rfl))
  have same : ∀ pc : Pc, (pc ≠ .done ∨ t.u = ρ t.v) → Mem n ρ dep (st.ts.set i { t with pc := pc }) st.s := fun pc hp => h.mem.congr (fin_set hi hn hp)
  -- an entry on the way up
  have way : ∀ X : Nat, X < n → ρ X = ρ t.v → (ρ X = X ∧ ∃ k, st.s[X]? = some (Int.negSucc k)) ∨ (ρ X ≠ X ∧ ∃ y : Nat, st.s[X]? = some (y : Int) ∧ y < n ∧ ρ y = ρ X ∧ dep y < dep X) := by
    intro X hX e
    by_cases c : ρ X = X
    · have : X = ρ t.v := by rw [← c, e]
      exact Or.inl ⟨c, kv, by rw [this]; exact hkv⟩
    · exact Or.inr ⟨c, h.mem.non X hX c⟩
  obtain ⟨u, v, pc⟩ := t
  unfold Next
  cases pc with
  | start =>
    rcases way v hv rfl with ⟨c, k, hk⟩ | ⟨c, y, hy, -⟩
    · refine ⟨st.s, .found (v : Int), ?_, same _ (Or.inl (by simp)), ?_, Or.inl ?_⟩
      · simp only [act]; rw [ent_nat hk, res_bind_ok, if_pos (by omega)]; rfl
      · simp only [Good]; rw [c]
      · simp only [weight]; omega
    · refine ⟨st.s, .test [] (v : Int), ?_, same _ (Or.inl (by simp)), ?_, Or.inl ?_⟩
      · simp only [act]; rw [ent_nat hy, res_bind_ok, if_neg (by omega)]; rfl
      · simp only [Good]; exact ⟨⟨v, rfl, hv, rfl⟩, by simp⟩
      · simp only [weight, Int.toNat_natCast, List.length_nil]; omega
  | test stack i' =>
    simp only [Good] at hg
    obtain ⟨⟨X, rfl, hX, e⟩, hs⟩ := hg
    rcases way X hX e with ⟨c, k, hk⟩ | ⟨c, y, hy, -⟩
    · refine ⟨st.s, .write stack (X : Int), ?_, same _ (Or.inl (by simp)), ?_, Or.inl ?_⟩
      · simp only [act]; rw [ent_nat hk, res_bind_ok, if_neg (by omega)]; rfl
      · simp only [Good]; exact ⟨by rw [← e, c], hs⟩
      · simp only [weight, Int.toNat_natCast]; omega
    · refine ⟨st.s, .take stack (X : Int), ?_, same _ (Or.inl (by simp)), ?_, Or.inl ?_⟩
      · simp only [act]; rw [ent_nat hy, res_bind_ok, if_pos (by omega)]; rfl
      · simp only [Good]; exact ⟨⟨X, rfl, hX, e, c⟩, hs⟩
      · simp only [weight, Int.toNat_natCast]; omega
  | take stack i' =>
    simp only [Good] at hg
    obtain ⟨⟨X, rfl, hX, e, c⟩, hs⟩ := hg
    obtain ⟨y, hy, h1, h2, h3⟩ := h.mem.non X hX c
    refine ⟨st.s, .test ((X : Int) :: stack) (y : Int), ?_, same _ (Or.inl (by simp)), ?_, Or.inl ?_⟩
    · simp only [act]; rw [ent_nat hy, res_bind_ok]; rfl
    · simp only [Good]
      refine ⟨⟨y, rfl, h1, by rw [h2, e]⟩, fun z hz => ?_⟩
      rcases List.mem_cons.1 hz with rfl | hz
      · exact ⟨X, rfl, hX, e, c⟩
      · exact hs z hz
    · simp only [weight, Int.toNat_natCast, List.length_cons]; omega
  | write stack r =>
    simp only [Good] at hg
    obtain ⟨rfl, hs⟩ := hg
    cases stack with
    | nil =>
      refine ⟨st.s, .found (ρ v : Int), rfl, same _ (Or.inl (by simp)), ?_, Or.inl ?_⟩
      · simp only [Good]
      · simp only [weight, List.length_nil]; omega
    | cons y stack =>
      obtain ⟨Y, rfl, hY, e, c⟩ := hs y (by simp)
      have hYl : Y < st.s.length := by rw [h.mem.len]; exact hY
      refine ⟨st.s.set Y (ρ v : Int), .write stack (ρ v : Int), ?_, ?_, ?_, Or.inl ?_⟩
      · simp only [act]; rw [put_nat _ hYl, res_bind_ok]; rfl
      · have := h.mem.shortcut hr h.args hY c
        rw [e] at this
        exact this.congr (fin_set hi hn (Or.inl (by simp)))
      · simp only [Good]; exact ⟨trivial, fun z hz => hs z (by simp [hz])⟩
      · simp only [weight, List.length_cons]; omega
  | found r =>
    simp only [Good] at hg
    subst hg
    by_cases c : u = ρ v
    · refine ⟨st.s, .done, ?_, same _ (Or.inr c), by simp only [Good], Or.inl (by simp only [weight]; omega)⟩
      simp only [act]; rw [if_pos (by rw [c])]; rfl
    · refine ⟨st.s, .half (ρ v : Int) (Int.negSucc ku), ?_, same _ (Or.inl (by simp)), ?_, Or.inl (by simp only [weight]; omega)⟩
      · simp only [act]; rw [if_neg (by intro e; exact c (by exact_mod_cast e)), ent_nat hku, res_bind_ok]; rfl
      · simp only [Good]; exact ⟨trivial, c, by omega⟩
  | half r a =>
    simp only [Good] at hg
    obtain ⟨rfl, c, ha⟩ := hg
    refine ⟨st.s, .add (ρ v : Int) a (Int.negSucc kv), ?_, same _ (Or.inl (by simp)), ?_, Or.inl (by simp only [weight]; omega)⟩
    · simp only [act]; rw [ent_nat hkv, res_bind_ok]; rfl
    · simp only [Good]; exact ⟨trivial, c, ha, by omega⟩
  | add r a b =>
    simp only [Good] at hg
    obtain ⟨rfl, c, ha, hb⟩ := hg
    obtain ⟨k, hk⟩ : ∃ k, ent st.s (goal ⟨u, v, .add (ρ v : Int) a b⟩ (ρ v : Int) a b) = .ok (Int.negSucc k) := by
      unfold goal
      split
      · exact ⟨kv, ent_nat hkv⟩
      · exact ⟨ku, ent_nat hku⟩
    refine ⟨st.s, .swap (ρ v : Int) a b (Int.negSucc k), ?_, same _ (Or.inl (by simp)), ?_, Or.inr ⟨by simp only [weight], rfl, ?_⟩⟩
    · simp only [act]; rw [hk, res_bind_ok]; rfl
    · simp only [Good]; exact ⟨trivial, c, ha, hb⟩
    · have : goal ⟨u, v, .swap (ρ v : Int) a b (Int.negSucc k)⟩ (ρ v : Int) a b = goal ⟨u, v, .add (ρ v : Int) a b⟩ (ρ v : Int) a b := rfl
      simp only [stale]
      rw [this, hk, if_pos rfl]
      exact Nat.one_pos
  | swap r a b old =>
    simp only [Good] at hg
    obtain ⟨rfl, c, ha, hb⟩ := hg
    obtain ⟨x, hxe, hx, hxr, hxl, k, hk⟩ : ∃ x : Nat, goal ⟨u, v, .swap (ρ v : Int) a b old⟩ (ρ v : Int) a b = (x : Int) ∧ x < n ∧ ρ x = x ∧ (∀ t', Fin ρ st.ts t' → loser ρ t' ≠ x) ∧
        ∃ k, st.s[x]? = some (Int.negSucc k) := by
      unfold goal
      split
      · exact ⟨ρ v, rfl, hr.lt _ hv, hr.idem _ hv, unlost h.args hi hn (Or.inr rfl), kv, hkv⟩
      · exact ⟨u, rfl, hu, hur, unlost h.args hi hn (Or.inl rfl), ku, hku⟩
    by_cases e : Int.negSucc k = old
    · subst e
      obtain ⟨m, hm'⟩ : ∃ m, Int.negSucc k + amount a b = Int.negSucc m := by
        have : amount a b < 0 := by unfold amount; split <;> assumption
        exact ⟨(-(Int.negSucc k + amount a b) - 1).toNat, by omega⟩
      refine ⟨st.s.set x (Int.negSucc m), .link (ρ v : Int), ?_, ?_, ?_, Or.inl (by simp only [weight]; omega)⟩
      · simp only [act]
        rw [hxe, ent_nat hk, res_bind_ok, if_pos rfl, put_nat _ (by rw [h.mem.len]; exact hx), res_bind_ok, hm']
        rfl
      · exact (h.mem.resize hx hxr hxl m).congr (fin_set hi hn (Or.inl (by simp)))
      · simp only [Good]; exact ⟨trivial, c⟩
    · refine ⟨st.s, .add (ρ v : Int) a b, ?_, same _ (Or.inl (by simp)), ?_, Or.inr ⟨by simp only [weight], rfl, ?_⟩⟩
      · simp only [act]
        rw [hxe, ent_nat hk, res_bind_ok, if_neg e]
        rfl
      · simp only [Good]; exact ⟨trivial, c, ha, hb⟩
      · simp only [stale]
        rw [hxe, ent_nat hk, if_neg (by intro e'; cases e'; exact e rfl)]
        omega
  | link r =>
    simp only [Good] at hg
    obtain ⟨rfl, c⟩ := hg
    dsimp only at c hu hur hv
    have hln : loser ρ ⟨u, v, .done⟩ < n ∧ ρ (loser ρ ⟨u, v, .done⟩) = loser ρ ⟨u, v, .done⟩ ∧ (loser ρ ⟨u, v, .done⟩ = u ∨ loser ρ ⟨u, v, .done⟩ = ρ v) := by
      unfold loser
      dsimp only
      split
      · exact ⟨hu, hur, Or.inl rfl⟩
      · exact ⟨hr.lt _ hv, hr.idem _ hv, Or.inr rfl⟩
    refine ⟨st.s.set (loser ρ ⟨u, v, .done⟩) (winner ρ ⟨u, v, .done⟩ : Int), .done, ?_, ?_, by simp only [Good], Or.inl (by simp only [weight]; omega)⟩
    · simp only [act]
      unfold loser winner
      dsimp only
      by_cases d : u < v
      · rw [if_pos d, if_pos d, if_pos d, put_nat _ (by rw [h.mem.len]; exact hu), res_bind_ok]; rfl
      · rw [if_neg d, if_neg d, if_neg d, put_nat _ (by rw [h.mem.len]; exact hr.lt _ hv), res_bind_ok]; rfl
    · exact h.mem.link (t := ⟨u, v, .done⟩) hln.1 hln.2.1 (fun t' ht' => unlost h.args hi hn hln.2.2 t' ht') (fin_link hi hn c)
  | done => exact absurd rfl hn

/-- Every schedule ends, without a fault, in a state in which every thread is done and the invariant holds. -/
theorem sure (hr : Ranks n ρ dep) (st : State) (h : Inv n ρ dep st) : Sure Step (fun s => ∃ ts, Inv n ρ dep ⟨s, ts⟩ ∧ (∀ t ∈ ts, t.pc = .done) ∧ ts.map (fun t => (t.u, t.v)) = st.ts.map fun t => (t.u, t.v)) st := by
  let C := st.ts.map fun t => (t.u, t.v)
  refine Sure.of_inv lexLt_wf (measure dep) (fun st => Inv n ρ dep st ∧ st.ts.map (fun t => (t.u, t.v)) = C) ?_ ?_ st ⟨h, rfl⟩
  · rintro st ⟨h, -⟩
    by_cases c : ∀ t ∈ st.ts, t.pc = .done
    · exact ⟨_, .stop c⟩
    · simp only [not_forall] at c
      obtain ⟨t, ht, hn⟩ := c
      obtain ⟨i, hi⟩ := List.mem_iff_getElem?.1 ht
      obtain ⟨s', pc, e, -⟩ := act_next hr h hi hn
      exact ⟨_, .ok hi hn e⟩
  · rintro st o ⟨h, hC⟩ hs
    cases hs with
    | @ok i t s' pc hi hn ha =>
      left
      obtain ⟨s'', pc', e, h1, h2, h3⟩ := act_next hr h hi hn
      rw [ha] at e
      cases e
      refine ⟨_, rfl, ⟨⟨args_set h.args hi pc, h1, good_set h.good i h2⟩, ?_⟩, ?_⟩
      · rw [← hC]
        apply List.ext_getElem?
        intro j
        rw [List.getElem?_map, List.getElem?_map, List.getElem?_set]
        split
        · rename_i e
          subst e
          rw [hi]
          have : i < st.ts.length := (List.getElem?_eq_some_iff.1 hi).1
          rw [if_pos this]
          rfl
        · rfl
      · unfold measure
        rcases h3 with h3 | ⟨h3, rfl, h4⟩
        · exact Prod.Lex.left _ _ (sum_map_set_lt (weight dep) hi h3)
        · have e : ((st.ts.set i { t with pc := pc }).map (weight dep)).sum = (st.ts.map (weight dep)).sum := by
            congr 1
            apply List.ext_getElem?
            intro j
            rw [List.getElem?_map, List.getElem?_map, List.getElem?_set]
            split
            · rename_i e
              subst e
              rw [hi]
              have : i < st.ts.length := (List.getElem?_eq_some_iff.1 hi).1
              rw [if_pos this]
              simp only [Option.map_some, h3]
            · rfl
          dsimp only
          rw [e]
          exact Prod.Lex.right _ (sum_map_set_lt (stale st.s) hi h4)
    | @fault i t f hi hn ha =>
      obtain ⟨s', pc, e, -⟩ := act_next hr h hi hn
      rw [ha] at e
      cases e
    | stop hd => exact Or.inr ⟨_, rfl, st.ts, h, hd, hC⟩

end NW.DsetPar
