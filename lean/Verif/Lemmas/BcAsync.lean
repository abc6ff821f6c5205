import Verif.Model.BcAsync
import Verif.Lemmas.BcWork

/-! # Lemmas: the guarded updates lead to the shortest paths in whatever order the edges are treated -/

namespace NW.BcAsync
open Spec Fifo
open NW.Brandes (Vec)
open NW.BcWork

variable {α : Type}

/-- Some update of the edge from `u` to `v` is pending. -/
def En (inf : Nat) (F : Nat → Node) (u v : Nat) : Prop :=
  ((F v).l ≤ (F u).l ∧ ((F u).edge v).1 = (F u).l ∧ (F u).l ≠ inf) ∨ (F u).l + 1 < (F v).l ∨ ((F v).l = (F u).l + 1 ∧ ((F u).edge v).1 ≠ (F u).l) ∨
    ((F u).l = ((F u).edge v).1 ∧ (F v).l = (F u).l + 1 ∧ ((F u).edge v).2 ≠ (F u).pc)

/-- What holds at all times. -/
structure CI (M inf : Nat) (g : Rows α) (s : Nat) (F : Nat → Node) : Prop where
  root : (F s).l = 0
  lvl : ∀ v < g.length, (F v).l ≠ inf → ∃ p : List Nat, p.Nodup ∧ p.length = (F v).l + 1 ∧ ∀ x ∈ p, x < g.length ∧ (F x).l ≤ (F v).l
  walk : ∀ v < g.length, (F v).l ≠ inf → Walk g s v (F v).l
  pcM : ∀ v < g.length, (F v).pc < M
  edM : ∀ v < g.length, ∀ w, ((F v).edge w).2 < M
  pred : ∀ v < g.length, ∀ u ∈ (F v).preds, u < g.length ∧ Edge g u v ∧ (F v).l = ((F u).edge v).1 + 1 ∧ (F u).l ≤ ((F u).edge v).1 ∧ (F v).l ≠ inf
  predN : ∀ v < g.length, (F v).preds.Nodup
  predE : ∀ v < g.length, v ≠ s → (F v).l ≠ inf → (F v).preds ≠ []
  zero : ∀ v < g.length, (F v).l = inf → (F v).pc = 0
  sum : ∀ v < g.length, (F v).pc % M = ((if v = s then 1 else 0) + ((F v).preds.map fun u => ((F u).edge v).2).sum) % M
  succN : ∀ u < g.length, (F u).succs.Nodup
  succ : ∀ u < g.length, ∀ v ∈ (F u).succs, v < g.length ∧ Edge g u v ∧ ((F u).edge v).1 = (F u).l ∧ (F u).l ≠ inf ∧ (F v).l ≤ (F u).l + 1 ∧ ((F v).l = (F u).l + 1 → u ∈ (F v).preds)
  recd : ∀ u < g.length, u ≠ s → (F u).l ≠ inf → ∀ v, ((F u).edge v).1 = (F u).l → v ∈ (F u).succs
  predsucc : ∀ v < g.length, ∀ u ∈ (F v).preds, (F u).l = ((F u).edge v).1 → v ∈ (F u).succs
  edge0 : ∀ u < g.length, ∀ v, ((F u).edge v).1 = 0 ∨ (F u).l ≤ ((F u).edge v).1

namespace CI

variable {M inf : Nat} {g : Rows α} {s : Nat} {F F' : Nat → Node}

theorem lt (h : CI M inf g s F) {v : Nat} (hv : v < g.length) (hl : (F v).l ≠ inf) : (F v).l < g.length := by
  obtain ⟨p, h1, h2, h3⟩ := h.lvl v hv hl
  have := nodup_length_le h1 fun x hx => (h3 x hx).1
  omega

theorem isRoot (h : CI M inf g s F) (hinf : g.length < inf) {v : Nat} (hv : v < g.length) (hl : (F v).l = 0) : v = s := by
  have := h.walk v hv (by omega)
  rw [hl] at this
  cases this
  rfl

theorem le (h : CI M inf g s F) (hinf : g.length < inf) {v : Nat} (hv : v < g.length) : (F v).l ≤ inf := by
  by_cases c : (F v).l = inf
  · omega
  · have := h.lt hv c; omega

/-- The edge is not on a shortest path any more. -/
theorem cn (h : CI M inf g s F) (hinf : g.length < inf) {u v : Nat} (hu : u < g.length) (h1 : (F v).l ≤ (F u).l) (h2 : ((F u).edge v).1 = (F u).l) (h3 : (F u).l ≠ inf)
    (hl : ∀ z, (F' z).l = (F z).l) (hp : ∀ z, (F' z).pc = (F z).pc) (hP : ∀ z, (F' z).preds = (F z).preds)
    (hS : ∀ z, (F' z).succs = if z = u then (F u).succs.erase v else (F z).succs)
    (hE : ∀ x y, (F' x).edge y = if x = u ∧ y = v then (inf, ((F u).edge v).2) else (F x).edge y) : CI M inf g s F' := by
  have hlt := h.lt hu h3
  have hE2 : ∀ x y, ((F' x).edge y).2 = ((F x).edge y).2 := by
    intro x y; rw [hE]; split
    · rename_i c; obtain ⟨rfl, rfl⟩ := c; rfl
    · rfl
  have hmem : ∀ x < g.length, ∀ y, y ∈ (F' x).succs ↔ y ∈ (F x).succs ∧ ¬ (x = u ∧ y = v) := by
    intro x hx y
    rw [hS]
    split
    · rename_i c; subst c
      rw [(h.succN x hx).mem_erase_iff]; tauto
    · rename_i c; simp [c]
  refine ⟨by rw [hl]; exact h.root, ?_, ?_, ?_, ?_, ?_, ?_, ?_, ?_, ?_, ?_, ?_, ?_, ?_, ?_⟩
  · intro z hz hn
    simp only [hl] at hn ⊢
    exact h.lvl z hz hn
  · intro z hz hn
    simp only [hl] at hn ⊢
    exact h.walk z hz hn
  · intro z hz; rw [hp]; exact h.pcM z hz
  · intro z hz w; rw [hE2]; exact h.edM z hz w
  · intro z hz x hx
    rw [hP] at hx
    obtain ⟨a1, a2, a3, a4, a5⟩ := h.pred z hz x hx
    have hne : ¬ (x = u ∧ z = v) := by rintro ⟨rfl, rfl⟩; omega
    rw [hE, if_neg hne, hl, hl]
    exact ⟨a1, a2, a3, a4, a5⟩
  · intro z hz; rw [hP]; exact h.predN z hz
  · intro z hz; rw [hP, hl]; exact h.predE z hz
  · intro z hz; rw [hp, hl]; exact h.zero z hz
  · intro z hz
    rw [hp, hP]
    simp only [hE2]
    exact h.sum z hz
  · intro x hx
    rw [hS]
    split
    · rename_i c; subst c; exact (h.succN x hx).erase v
    · exact h.succN x hx
  · intro x hx y hy
    obtain ⟨b1, b2⟩ := (hmem x hx y).1 hy
    rw [hE, if_neg b2, hl, hl, hP]
    exact h.succ x hx y b1
  · intro x hx hxs hxl y hy
    rw [hl] at hxl hy
    rw [hE] at hy
    split at hy
    · exact absurd hy.symm hxl
    · rename_i c
      exact (hmem x hx y).2 ⟨h.recd x hx hxs hxl y hy, c⟩
  · intro z hz x hx hy
    rw [hP] at hx
    obtain ⟨a1, a2, a3, a4, a5⟩ := h.pred z hz x hx
    have hne : ¬ (x = u ∧ z = v) := by rintro ⟨rfl, rfl⟩; omega
    rw [hE, if_neg hne, hl] at hy
    exact (hmem x a1 z).2 ⟨h.predsucc z hz x hx hy, hne⟩
  · intro x hx y
    rw [hE, hl]
    split
    · right; exact h.le hinf hx
    · exact h.edge0 x hx y

/-- A shorter path. -/
theorem sp (h : CI M inf g s F) (hinf : g.length < inf) {u v : Nat} (hu : u < g.length) (hv : v < g.length) (he : Edge g u v) (h3 : (F u).l ≠ inf) (h1 : (F u).l + 1 < (F v).l)
    (hl : ∀ z, (F' z).l = if z = v then (F u).l + 1 else (F z).l) (hp : ∀ z, (F' z).pc = if z = v then (F u).pc else (F z).pc) (hP : ∀ z, (F' z).preds = if z = v then [u] else (F z).preds)
    (hS : ∀ z, (F' z).succs = if z = v then [] else if z = u then (F u).succs ++ [v] else (F z).succs)
    (hE : ∀ x y, (F' x).edge y = if x = u ∧ y = v then ((F u).l, (F u).pc) else (F x).edge y) : CI M inf g s F' := by
  have hlt := h.lt hu h3
  have huv : u ≠ v := by rintro rfl; omega
  have hvs : v ≠ s := by rintro rfl; rw [h.root] at h1; omega
  have hroot : u ≠ v := huv
  have hmono : ∀ z, (F' z).l ≤ (F z).l := by intro z; rw [hl]; split; (rename_i c; subst c; omega); exact Nat.le_refl _
  have hvS : v ∉ (F u).succs := fun hh => by have := (h.succ u hu v hh).2.2.2.2.1; omega
  have hlu : (F' u).l = (F u).l := by rw [hl, if_neg huv]
  have hlv : (F' v).l = (F u).l + 1 := by rw [hl, if_pos rfl]
  have hlz : ∀ z, z ≠ v → (F' z).l = (F z).l := fun z hz => by rw [hl, if_neg hz]
  have hEz : ∀ x y, y ≠ v → (F' x).edge y = (F x).edge y := fun x y hy => by rw [hE, if_neg fun hh => hy hh.2]
  have hEx : ∀ x y, x ≠ u → (F' x).edge y = (F x).edge y := fun x y hx => by rw [hE, if_neg fun hh => hx hh.1]
  have hEuv : (F' u).edge v = ((F u).l, (F u).pc) := by rw [hE, if_pos ⟨rfl, rfl⟩]
  have hv0 : ∀ y, ((F v).edge y).1 ≠ (F u).l + 1 := by
    intro y hy
    rcases h.edge0 v hv y with k | k <;> omega
  refine ⟨by rw [hlz s hvs.symm]; exact h.root, ?_, ?_, ?_, ?_, ?_, ?_, ?_, ?_, ?_, ?_, ?_, ?_, ?_, ?_⟩
  · intro z hz hn
    by_cases c : z = v
    · subst c
      obtain ⟨p, a1, a2, a3⟩ := h.lvl u hu h3
      refine ⟨p ++ [z], ?_, by rw [List.length_append, a2, hlv]; rfl, ?_⟩
      · rw [List.nodup_append]
        refine ⟨a1, by simp, ?_⟩
        rintro a ha b hb rfl
        simp at hb; subst hb
        have := (a3 a ha).2; omega
      · intro x hx
        rw [List.mem_append, List.mem_singleton] at hx
        rcases hx with hx | rfl
        · refine ⟨(a3 x hx).1, ?_⟩
          have := (a3 x hx).2
          have := hmono x
          omega
        · exact ⟨hz, Nat.le_refl _⟩
    · rw [hlz z c] at hn ⊢
      obtain ⟨p, a1, a2, a3⟩ := h.lvl z hz hn
      exact ⟨p, a1, a2, fun x hx => ⟨(a3 x hx).1, (hmono x).trans (a3 x hx).2⟩⟩
  · intro z hz hn
    by_cases c : z = v
    · subst c; rw [hlv]; exact (h.walk u hu h3).snoc he
    · rw [hlz z c] at hn ⊢; exact h.walk z hz hn
  · intro z hz
    rw [hp]; split
    · exact h.pcM u hu
    · exact h.pcM z hz
  · intro z hz w
    rw [hE]; split
    · exact h.pcM u hu
    · exact h.edM z hz w
  · intro z hz x hx
    rw [hP] at hx
    split at hx
    · rename_i c; subst c
      simp at hx; subst hx
      rw [hEuv, hlv, hlu]
      exact ⟨hu, he, rfl, Nat.le_refl _, by omega⟩
    · rename_i c
      obtain ⟨a1, a2, a3, a4, a5⟩ := h.pred z hz x hx
      rw [hEz x z c, hlz z c]
      exact ⟨a1, a2, a3, (hmono x).trans a4, a5⟩
  · intro z hz; rw [hP]; split
    · simp
    · exact h.predN z hz
  · intro z hz hzs hzl; rw [hP]; split
    · simp
    · rename_i c; rw [hlz z c] at hzl; exact h.predE z hz hzs hzl
  · intro z hz hzl; rw [hp]; split
    · rename_i c; subst c; rw [hlv] at hzl; omega
    · rename_i c; rw [hlz z c] at hzl; exact h.zero z hz hzl
  · intro z hz
    rw [hp, hP]
    split
    · rename_i c; subst c
      simp [hvs, hEuv]
    · rename_i c
      simp only [hEz _ z c]
      exact h.sum z hz
  · intro x hx
    rw [hS]
    split
    · simp
    · split
      · rename_i c; subst c
        rw [List.nodup_append]
        refine ⟨h.succN x hx, by simp, ?_⟩
        rintro a ha b hb rfl
        simp at hb; subst hb
        exact hvS ha
      · exact h.succN x hx
  · intro x hx y hy
    rw [hS] at hy
    split at hy
    · simp at hy
    · rename_i c
      by_cases d : y = v
      · subst d
        by_cases e : x = u
        · subst e
          rw [hEuv, hlu, hlv, hP, if_pos rfl]
          exact ⟨hv, he, rfl, h3, Nat.le_refl _, fun _ => by simp⟩
        · rw [if_neg e] at hy
          obtain ⟨a1, a2, a3, a4, a5, a6⟩ := h.succ x hx y hy
          rw [hEx x y e, hlz x c]
          refine ⟨a1, a2, a3, a4, (hmono y).trans a5, ?_⟩
          rw [hlv]; omega
      · have hy' : y ∈ (F x).succs := by
          split at hy
          · rename_i e; subst e; simpa [d] using hy
          · exact hy
        obtain ⟨a1, a2, a3, a4, a5, a6⟩ := h.succ x hx y hy'
        rw [hEz x y d, hlz x c, hlz y d, hP, if_neg d]
        exact ⟨a1, a2, a3, a4, a5, a6⟩
  · intro x hx hxs hxl y hy
    rw [hS]
    by_cases c : x = v
    · subst c
      rw [hEx x y huv.symm, hlv] at hy
      exact absurd hy (hv0 y)
    · rw [if_neg c]
      rw [hlz x c] at hxl hy
      split
      · rename_i e; subst e
        by_cases d : y = v
        · simp [d]
        · rw [hEz x y d] at hy
          simp [h.recd x hx hxs hxl y hy]
      · rename_i e
        rw [hEx x y e] at hy
        exact h.recd x hx hxs hxl y hy
  · intro z hz x hx hy
    rw [hP] at hx
    rw [hS]
    split at hx
    · rename_i c; subst c
      simp at hx; subst hx
      rw [if_neg huv, if_pos rfl]; simp
    · rename_i c
      rw [hEz x z c] at hy
      by_cases d : x = v
      · subst d
        rw [hlv] at hy
        exact absurd hy.symm (hv0 z)
      · rw [if_neg d]
        rw [hlz x d] at hy
        have := h.predsucc z hz x hx hy
        split
        · rename_i e; subst e; simp [this]
        · exact this
  · intro x hx y
    by_cases c : x = u ∧ y = v
    · obtain ⟨rfl, rfl⟩ := c
      rw [hEuv, hlu]; right; exact Nat.le_refl _
    · rw [hE, if_neg c]
      rcases h.edge0 x hx y with k | k
      · left; exact k
      · right; exact (hmono x).trans k

/-- One more shortest path. -/
theorem fu (h : CI M inf g s F) (hM : 0 < M) {u v : Nat} (hu : u < g.length) (hv : v < g.length) (he : Edge g u v) (h3 : (F u).l ≠ inf) (hvi : (F v).l ≠ inf) (h1 : (F v).l = (F u).l + 1)
    (h2 : ((F u).edge v).1 ≠ (F u).l)
    (hl : ∀ z, (F' z).l = (F z).l) (hp : ∀ z, (F' z).pc = if z = v then ((F v).pc + (F u).pc) % M else (F z).pc) (hP : ∀ z, (F' z).preds = if z = v then (F v).preds ++ [u] else (F z).preds)
    (hS : ∀ z, (F' z).succs = if z = u then (F u).succs ++ [v] else (F z).succs)
    (hE : ∀ x y, (F' x).edge y = if x = u ∧ y = v then ((F u).l, (F u).pc) else (F x).edge y) : CI M inf g s F' := by
  have huv : u ≠ v := by rintro rfl; omega
  have hvs : v ≠ s := by rintro rfl; rw [h.root] at h1; omega
  have hvS : v ∉ (F u).succs := fun hh => h2 (h.succ u hu v hh).2.2.1
  have hup : u ∉ (F v).preds := fun hh => by have := (h.pred v hv u hh).2.2.1; omega
  have hEz : ∀ x y, y ≠ v → (F' x).edge y = (F x).edge y := fun x y hy => by rw [hE, if_neg fun hh => hy hh.2]
  have hEx : ∀ x y, x ≠ u → (F' x).edge y = (F x).edge y := fun x y hx => by rw [hE, if_neg fun hh => hx hh.1]
  have hEuv : (F' u).edge v = ((F u).l, (F u).pc) := by rw [hE, if_pos ⟨rfl, rfl⟩]
  have hPm : ∀ z x, x ∈ (F z).preds → x ∈ (F' z).preds := by
    intro z x hx; rw [hP]; split
    · rename_i c; subst c; simp [hx]
    · exact hx
  have hSm : ∀ x y, y ∈ (F x).succs → y ∈ (F' x).succs := by
    intro x y hx; rw [hS]; split
    · rename_i c; subst c; simp [hx]
    · exact hx
  have hSi : ∀ x y, y ∈ (F' x).succs → (x = u ∧ y = v) ∨ (y ∈ (F x).succs ∧ ¬ (x = u ∧ y = v)) := by
    intro x y hy
    rw [hS] at hy
    split at hy
    · rename_i c; subst c
      rw [List.mem_append, List.mem_singleton] at hy
      rcases hy with k | k
      · exact Or.inr ⟨k, fun hh => hvS (hh.2 ▸ k)⟩
      · exact Or.inl ⟨rfl, k⟩
    · rename_i c; exact Or.inr ⟨hy, fun hh => c hh.1⟩
  have hPi : ∀ z x, x ∈ (F' z).preds → (x = u ∧ z = v) ∨ (x ∈ (F z).preds ∧ ¬ (x = u ∧ z = v)) := by
    intro z x hy
    rw [hP] at hy
    split at hy
    · rename_i c; subst c
      rw [List.mem_append, List.mem_singleton] at hy
      rcases hy with k | k
      · exact Or.inr ⟨k, fun hh => hup (hh.1 ▸ k)⟩
      · exact Or.inl ⟨k, rfl⟩
    · rename_i c; exact Or.inr ⟨hy, fun hh => c hh.2⟩
  refine ⟨by rw [hl]; exact h.root, ?_, ?_, ?_, ?_, ?_, ?_, ?_, ?_, ?_, ?_, ?_, ?_, ?_, ?_⟩
  · intro z hz hn
    simp only [hl] at hn ⊢
    exact h.lvl z hz hn
  · intro z hz hn
    simp only [hl] at hn ⊢
    exact h.walk z hz hn
  · intro z hz; rw [hp]; split
    · exact Nat.mod_lt _ hM
    · exact h.pcM z hz
  · intro z hz w; rw [hE]; split
    · exact h.pcM u hu
    · exact h.edM z hz w
  · intro z hz x hx
    rcases hPi z x hx with ⟨rfl, rfl⟩ | ⟨k, hne⟩
    · rw [hEuv, hl, hl]
      exact ⟨hu, he, h1, Nat.le_refl _, hvi⟩
    · rw [hE, if_neg hne, hl, hl]
      exact h.pred z hz x k
  · intro z hz; rw [hP]; split
    · rename_i c; subst c
      rw [List.nodup_append]
      refine ⟨h.predN z hz, by simp, ?_⟩
      rintro a ha b hb rfl
      simp at hb; subst hb
      exact hup ha
    · exact h.predN z hz
  · intro z hz hzs hzl; rw [hP]; split
    · simp
    · rw [hl] at hzl; exact h.predE z hz hzs hzl
  · intro z hz hzl; rw [hl] at hzl; rw [hp]; split
    · rename_i c; subst c; exact absurd hzl hvi
    · exact h.zero z hz hzl
  · intro z hz
    rw [hp, hP]
    split
    · rename_i c; subst c
      have hold : ((F z).preds.map fun x => ((F' x).edge z).2) = (F z).preds.map fun x => ((F x).edge z).2 := by
        apply List.map_congr_left
        intro x hx
        rw [hEx x z (by rintro rfl; exact hup hx)]
      rw [List.map_append, List.sum_append, hold]
      simp only [List.map_cons, List.map_nil, List.sum_cons, List.sum_nil, hEuv, Nat.add_zero, Nat.mod_mod]
      rw [← Nat.add_assoc, Nat.add_mod, h.sum z hz, ← Nat.add_mod]
    · rename_i c
      simp only [hEz _ z c]
      exact h.sum z hz
  · intro x hx
    rw [hS]
    split
    · rename_i c; subst c
      rw [List.nodup_append]
      refine ⟨h.succN x hx, by simp, ?_⟩
      rintro a ha b hb rfl
      simp at hb; subst hb
      exact hvS ha
    · exact h.succN x hx
  · intro x hx y hy
    rcases hSi x y hy with ⟨rfl, rfl⟩ | ⟨k, hne⟩
    · rw [hEuv, hl, hl]
      refine ⟨hv, he, rfl, h3, by omega, fun _ => ?_⟩
      rw [hP, if_pos rfl]; simp
    · rw [hE, if_neg hne, hl, hl]
      obtain ⟨a1, a2, a3, a4, a5, a6⟩ := h.succ x hx y k
      exact ⟨a1, a2, a3, a4, a5, fun k => hPm _ _ (a6 k)⟩
  · intro x hx hxs hxl y hy
    rw [hl] at hxl hy
    by_cases c : x = u ∧ y = v
    · obtain ⟨rfl, rfl⟩ := c
      rw [hS, if_pos rfl]; simp
    · rw [hE, if_neg c] at hy
      exact hSm _ _ (h.recd x hx hxs hxl y hy)
  · intro z hz x hx hy
    rcases hPi z x hx with ⟨rfl, rfl⟩ | ⟨k, hne⟩
    · rw [hS, if_pos rfl]; simp
    · rw [hl, hE, if_neg hne] at hy
      exact hSm _ _ (h.predsucc z hz x k hy)
  · intro x hx y
    rw [hE, hl]
    split
    · rename_i c; obtain ⟨rfl, rfl⟩ := c; right; exact Nat.le_refl _
    · exact h.edge0 x hx y

/-- The edge is on a shortest path that has been recorded. -/
theorem recorded (h : CI M inf g s F) (hinf : g.length < inf) {u v : Nat} (hu : u < g.length) (hv : v < g.length) (h3 : (F u).l ≠ inf) (hvi : (F v).l ≠ inf) (h1 : (F v).l = (F u).l + 1)
    (h2 : (F u).l = ((F u).edge v).1) : u ∈ (F v).preds := by
  by_cases c : u = s
  · subst c
    have hvs : v ≠ u := by rintro rfl; omega
    have hne := h.predE v hv hvs hvi
    obtain ⟨x, hx⟩ := List.exists_mem_of_ne_nil _ hne
    obtain ⟨a1, a2, a3, a4, a5⟩ := h.pred v hv x hx
    rw [h.root] at h1
    have : x = u := h.isRoot hinf a1 (by omega)
    exact this ▸ hx
  · exact (h.succ u hu v (h.recd u hu c h3 v h2.symm)).2.2.2.2.2 h1

/-- The number of shortest paths to `u` has changed. -/
theorem us (h : CI M inf g s F) (hinf : g.length < inf) (hM : 0 < M) {u v : Nat} (hu : u < g.length) (hv : v < g.length) (h3 : (F u).l ≠ inf) (hvi : (F v).l ≠ inf) (h1 : (F v).l = (F u).l + 1)
    (h2 : (F u).l = ((F u).edge v).1)
    (hl : ∀ z, (F' z).l = (F z).l) (hp : ∀ z, (F' z).pc = if z = v then ((F v).pc + (F u).pc + (M - ((F u).edge v).2)) % M else (F z).pc) (hP : ∀ z, (F' z).preds = (F z).preds)
    (hS : ∀ z, (F' z).succs = (F z).succs) (hE : ∀ x y, (F' x).edge y = if x = u ∧ y = v then (((F u).edge v).1, (F u).pc) else (F x).edge y) : CI M inf g s F' := by
  have huv : u ≠ v := by rintro rfl; omega
  have hup := h.recorded hinf hu hv h3 hvi h1 h2
  have hE1 : ∀ x y, ((F' x).edge y).1 = ((F x).edge y).1 := by
    intro x y; rw [hE]; split
    · rename_i c; obtain ⟨rfl, rfl⟩ := c; rfl
    · rfl
  refine ⟨by rw [hl]; exact h.root, ?_, ?_, ?_, ?_, ?_, ?_, ?_, ?_, ?_, ?_, ?_, ?_, ?_, ?_⟩
  · intro z hz hn
    simp only [hl] at hn ⊢
    exact h.lvl z hz hn
  · intro z hz hn
    simp only [hl] at hn ⊢
    exact h.walk z hz hn
  · intro z hz; rw [hp]; split
    · exact Nat.mod_lt _ hM
    · exact h.pcM z hz
  · intro z hz w; rw [hE]; split
    · exact h.pcM u hu
    · exact h.edM z hz w
  · intro z hz x hx
    rw [hP] at hx
    rw [hE1, hl, hl]
    exact h.pred z hz x hx
  · intro z hz; rw [hP]; exact h.predN z hz
  · intro z hz; rw [hP, hl]; exact h.predE z hz
  · intro z hz hzl; rw [hl] at hzl; rw [hp]; split
    · rename_i c; subst c; exact absurd hzl hvi
    · exact h.zero z hz hzl
  · intro z hz
    rw [hp, hP]
    split
    · rename_i c; subst c
      have hperm := List.perm_cons_erase hup
      have hrest : ∀ x ∈ (F z).preds.erase u, x ≠ u := fun x hx => ((h.predN z hz).mem_erase_iff.1 hx).1
      have e1 : ((F z).preds.map fun x => ((F x).edge z).2).sum = ((F u).edge z).2 + (((F z).preds.erase u).map fun x => ((F x).edge z).2).sum := by
        rw [(hperm.map _).sum_eq]; simp
      have e2 : ((F z).preds.map fun x => ((F' x).edge z).2).sum = (F u).pc + (((F z).preds.erase u).map fun x => ((F x).edge z).2).sum := by
        rw [(hperm.map _).sum_eq]
        simp only [List.map_cons, List.sum_cons]
        rw [hE, if_pos ⟨rfl, rfl⟩]
        congr 2
        apply List.map_congr_left
        intro x hx
        rw [hE, if_neg fun hh => hrest x hx hh.1]
      have hs := h.sum z hz
      rw [e1] at hs
      rw [e2, Nat.mod_mod]
      have hlt := h.edM u hu z
      generalize (((F z).preds.erase u).map fun x => ((F x).edge z).2).sum = R at *
      generalize ((F u).edge z).2 = b at *
      generalize (F u).pc = a at *
      generalize (F z).pc = c at *
      generalize (if z = s then 1 else 0) = d at *
      calc (c + a + (M - b)) % M = (c + (a + (M - b))) % M := by rw [Nat.add_assoc]
        _ = (d + (b + R) + (a + (M - b))) % M := by rw [Nat.add_mod, hs, ← Nat.add_mod]
        _ = (d + (a + R) + M) % M := by congr 1; omega
        _ = (d + (a + R)) % M := Nat.add_mod_right _ _
    · rename_i c
      have : ∀ x, (F' x).edge z = (F x).edge z := fun x => by rw [hE, if_neg fun hh => c hh.2]
      simp only [this]
      exact h.sum z hz
  · intro x hx; rw [hS]; exact h.succN x hx
  · intro x hx y hy
    rw [hS] at hy
    rw [hE1, hl, hl, hP]
    exact h.succ x hx y hy
  · intro x hx hxs hxl y hy
    rw [hl] at hxl hy
    rw [hE1] at hy
    rw [hS]
    exact h.recd x hx hxs hxl y hy
  · intro z hz x hx hy
    rw [hP] at hx
    rw [hl, hE1] at hy
    rw [hS]
    exact h.predsucc z hz x hx hy
  · intro x hx y
    rw [hE1, hl]
    exact h.edge0 x hx y

end CI

end NW.BcAsync
