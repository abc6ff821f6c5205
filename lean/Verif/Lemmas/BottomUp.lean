import Verif.Model.BfsEdges
import Mathlib.Data.Nat.ModEq

/-! # Lemmas: `bottomup_bfs_range` -/

namespace NW.BfsEdges
open Spec

variable {α : Type}

theorem cyc_inj {n s a b : Nat} (ha : a < n) (hb : b < n) (h : (s + a) % n = (s + b) % n) : a = b :=
  Nat.ModEq.eq_of_lt_of_lt (Nat.ModEq.add_left_cancel' s h) ha hb

theorem firstProcessed_spec {n : Nat} {colors : List Status} {P : Nat → Prop}
    (h : ∀ w, w < n → ∃ c, vget colors w = .ok c ∧ (c = .processed ↔ P w)) (row : List (Nat × α)) (hr : ∀ x ∈ row, x.1 < n) :
    ∃ o, firstProcessed colors row = .ok o ∧ (∀ p, o = some p → p ∈ row.map Prod.fst ∧ P p) ∧ (o = none → ∀ x ∈ row, ¬ P x.1) := by
  induction row with
  | nil => exact ⟨none, rfl, by simp, by simp⟩
  | cons x xs ih =>
    obtain ⟨c, h1, h2⟩ := h x.1 (hr x (by simp))
    unfold firstProcessed
    rw [h1, res_bind_ok]
    by_cases e : c = .processed
    · rw [if_pos e]
      exact ⟨some x.1, rfl, fun p hp => by cases hp; exact ⟨by simp, h2.1 e⟩, by simp⟩
    · rw [if_neg e]
      obtain ⟨o, a, b, c'⟩ := ih fun y hy => hr y (List.mem_cons_of_mem _ hy)
      refine ⟨o, a, fun p hp => ⟨List.mem_cons_of_mem _ (b p hp).1, (b p hp).2⟩, fun ho y hy => ?_⟩
      rcases List.mem_cons.1 hy with rfl | hy
      · exact fun hp => e (h2.2 hp)
      · exact c' ho y hy

/-- How the parent reported with `v` relates to the vertices reported before. -/
def ParentOk (g : Rows α) (before : List Nat) (v p : Nat) : Prop :=
  (nbrs g v = [] → p = v) ∧ ((∃ u, Edge g v u ∧ u ∈ before) → Edge g v p ∧ p ∈ before)

/-- The state after the pairs `acc`. -/
structure BuAt (g : Rows α) (s : Nat) (st : BottomUp) (acc : List (Nat × Nat)) : Prop where
  len : st.colors.length = g.length
  count : st.n = acc.length
  le : acc.length ≤ g.length
  order : acc.map Prod.fst = (List.range acc.length).map fun i => (s + i) % g.length
  here : st.v = (s + acc.length) % g.length
  parent : 0 < acc.length → acc.length < g.length → ParentOk g (acc.map Prod.fst) st.v st.parent
  past : ∀ i, 0 < i → ∀ v p, acc[i]? = some (v, p) → ParentOk g ((acc.take i).map Prod.fst) v p
  marks : acc.length < g.length → ∀ w, w < g.length → ∃ c, vget st.colors w = .ok c ∧ (c = .processed ↔ w ∈ acc.map Prod.fst)

theorem buNext_spec {g : Rows α} (hg : InRange g) {s : Nat} {st : BottomUp} {acc : List (Nat × Nat)} (h : BuAt g s st acc)
    (hlt : acc.length < g.length) : ∃ st', buNext g st = .ok st' ∧ BuAt g s st' (acc ++ [(st.v, st.parent)]) := by
  have hn : 0 < g.length := Nat.lt_of_le_of_lt (Nat.zero_le _) hlt
  have hv : st.v < g.length := by rw [h.here]; exact Nat.mod_lt _ hn
  have hv' : (st.v + 1) % g.length < g.length := Nat.mod_lt _ hn
  have hve : (st.v + 1) % g.length = (s + (acc.length + 1)) % g.length := by
    rw [h.here, Nat.mod_add_mod, Nat.add_assoc]
  have hord : (acc ++ [(st.v, st.parent)]).map Prod.fst = (List.range (acc.length + 1)).map fun i => (s + i) % g.length := by
    rw [List.map_append, h.order, List.range_succ, List.map_append]
    simp [h.here]
  generalize hcols : (st.colors.set st.v .processed).set ((st.v + 1) % g.length) .waiting = cols
  have hmarks : acc.length + 1 < g.length → ∀ w, w < g.length → ∃ c, vget cols w = .ok c ∧ (c = .processed ↔ w ∈ (acc ++ [(st.v, st.parent)]).map Prod.fst) := by
    intro hlt' w hw
    subst hcols
    rcases eq_or_ne w ((st.v + 1) % g.length) with e | e
    · subst e
      refine ⟨.waiting, by rw [vget_eq_ok]; simp [h.len, hv'], ?_⟩
      simp only [reduceCtorEq, false_iff]
      rw [hord, hve]
      intro hm
      obtain ⟨i, hi, e⟩ := List.mem_map.1 hm
      have := cyc_inj (Nat.lt_trans (List.mem_range.1 hi) hlt') hlt' e
      have := List.mem_range.1 hi
      omega
    · rcases eq_or_ne w st.v with e' | e'
      · subst e'
        exact ⟨.processed, by rw [vget_eq_ok, List.getElem?_set_ne (Ne.symm e)]; simp [h.len, hv], by simp⟩
      · obtain ⟨c, h1, h2⟩ := h.marks hlt w hw
        refine ⟨c, by rw [vget_eq_ok, List.getElem?_set_ne (Ne.symm e), List.getElem?_set_ne (Ne.symm e')]; exact vget_eq_ok.1 h1, ?_⟩
        rw [h2, List.map_append, List.mem_append]
        simp [e']
  have hcl : cols.length = g.length := by subst hcols; simp [h.len]
  have hpast : ∀ i, 0 < i → ∀ v p, (acc ++ [(st.v, st.parent)])[i]? = some (v, p) → ParentOk g (((acc ++ [(st.v, st.parent)]).take i).map Prod.fst) v p := by
    intro i hi v p he
    rcases Nat.lt_trichotomy i acc.length with c | c | c
    · rw [List.getElem?_append_left c] at he
      rw [List.take_append_of_le_length (Nat.le_of_lt c)]
      exact h.past i hi v p he
    · subst c
      simp at he
      obtain ⟨rfl, rfl⟩ := he
      rw [List.take_left]
      exact h.parent hi hlt
    · rw [List.getElem?_eq_none (by simp; omega)] at he; cases he
  have hrow : vget g ((st.v + 1) % g.length) = .ok (g.getD ((st.v + 1) % g.length) []) := by
    rw [vget_of_lt hv', List.getD_eq_getElem?_getD, List.getElem?_eq_getElem hv']; rfl
  unfold buNext
  rw [vset_of_lt (by rw [h.len]; exact hv), res_bind_ok]
  dsimp only
  rw [vset_of_lt (by simp [h.len, hv']), res_bind_ok, hrow, res_bind_ok, hcols]
  have mk : ∀ par, (acc.length + 1 < g.length → ParentOk g ((acc ++ [(st.v, st.parent)]).map Prod.fst) ((st.v + 1) % g.length) par) →
      BuAt g s { colors := cols, v := (st.v + 1) % g.length, parent := par, n := st.n + 1 } (acc ++ [(st.v, st.parent)]) := by
    intro par hp
    exact ⟨hcl, by simp [h.count], by simp; omega, by simpa using hord, by simp only [List.length_append, List.length_singleton]; exact hve,
      fun _ hl => hp (by simpa using hl), hpast, fun hl => hmarks (by simpa using hl)⟩
  cases hr : g.getD ((st.v + 1) % g.length) [] with
  | nil =>
    refine ⟨_, rfl, mk _ fun _ => ⟨fun _ => rfl, ?_⟩⟩
    rintro ⟨u, hu, -⟩
    unfold Edge nbrs at hu
    rw [hr] at hu; cases hu
  | cons x xs =>
    simp only [List.isEmpty_cons, Bool.false_eq_true, if_false]
    have hin : ∀ y ∈ x :: xs, y.1 < g.length := fun y hy => hg _ _ (show Edge g ((st.v + 1) % g.length) y.1 by
      unfold Edge nbrs; rw [hr]; exact List.mem_map_of_mem hy)
    by_cases hl : acc.length + 1 < g.length
    · obtain ⟨o, a, b, c⟩ := firstProcessed_spec (hmarks hl) (x :: xs) hin
      rw [a, res_bind_ok]
      refine ⟨_, rfl, mk _ fun _ => ⟨fun hnil => ?_, ?_⟩⟩
      · unfold nbrs at hnil; rw [hr] at hnil; cases hnil
      · rintro ⟨u, hu, hub⟩
        cases o with
        | none =>
          exfalso
          unfold Edge nbrs at hu
          rw [hr] at hu
          obtain ⟨y, hy, rfl⟩ := List.mem_map.1 hu
          exact c rfl y hy hub
        | some p =>
          obtain ⟨b1, b2⟩ := b p rfl
          refine ⟨?_, b2⟩
          unfold Edge nbrs
          rw [hr]; exact b1
    · obtain ⟨o, a, -, -⟩ := firstProcessed_spec (n := g.length) (colors := cols) (P := fun w => cols[w]? = some .processed)
        (fun w hw => ⟨cols[w]'(by rw [hcl]; exact hw), vget_of_lt _, by rw [List.getElem?_eq_getElem (by rw [hcl]; exact hw)]; simp⟩) (x :: xs) hin
      rw [a, res_bind_ok]
      exact ⟨_, rfl, mk _ fun h' => absurd h' hl⟩

end NW.BfsEdges
