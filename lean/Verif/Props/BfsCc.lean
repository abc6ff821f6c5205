import Verif.Model.BfsCc
import Verif.Props.BfsEdges
import Verif.Spec.Components

/-! # Property C88: the experimental `compute_connected_components` -/

namespace NW.BfsCc
open Spec

variable {α : Type}

theorem conn_of_walk {g : Rows α} {s v k : Nat} (h : Walk g s v k) : Conn (Edge g) s v := by
  induction h with
  | nil => exact .refl _
  | snoc _ e ih => exact .fwd ih e

/-- The vertices begun so far: label `c` belongs to the component of `src[c]`; the vertices before `m` have labels. -/
structure Inv (inf : Nat) (g : Rows α) (m : Nat) (ids : List Nat) (src : List Nat) : Prop where
  len : ids.length = g.length
  few : src.length ≤ m
  lbl : ∀ (v x : Nat), ids[v]? = some x → x = inf ∨ ∃ s, src[x]? = some s ∧ Conn (Edge g) s v
  all : ∀ v, v < m → ids[v]? ≠ some inf

theorem label_ok {inf : Nat} {g : Rows α} {m : Nat} {src : List Nat} {c s : Nat} (hc : src[c]? = some s) (hci : c ≠ inf) :
    ∀ (es : List (Nat × Nat)) {ids : List Nat}, Inv inf g m ids src → (∀ e ∈ es, e.1 < g.length ∧ Conn (Edge g) s e.1) →
      ∃ ids', label c es ids = .ok ids' ∧ Inv inf g m ids' src := by
  intro es
  induction es with
  | nil => intro ids h _; exact ⟨ids, rfl, h⟩
  | cons e es ih =>
    intro ids h he
    obtain ⟨h1, h2⟩ := he e (by simp)
    have hl := h.len
    have hI : Inv inf g m (ids.set e.1 c) src := by
      refine ⟨by simpa using hl, h.few, ?_, ?_⟩
      · intro v x hx
        rw [List.getElem?_set] at hx
        split at hx
        · rename_i heq
          subst heq
          rw [if_pos (by omega)] at hx
          cases hx
          exact .inr ⟨s, hc, h2⟩
        · exact h.lbl v x hx
      · intro v hv hx
        rw [List.getElem?_set] at hx
        split at hx
        · rw [if_pos (by omega)] at hx
          cases hx
          exact hci rfl
        · exact h.all v hv hx
    obtain ⟨ids', h3, h4⟩ := ih hI (fun e he' => he e (by simp [he']))
    exact ⟨ids', by rw [label, vset_of_lt (by omega)]; exact h3, h4⟩

theorem go_ok {inf : Nat} {g : Rows α} (hg : InRange g) (hinf : g.length ≤ inf) :
    ∀ (k m : Nat) (ids src : List Nat), m + k = g.length → Inv inf g m ids src →
      ∃ ids' src', Go inf g (List.range' m k) ids src.length (.ok ids') ∧ Inv inf g g.length ids' src' := by
  intro k
  induction k with
  | zero => intro m ids src hm h; exact ⟨ids, src, .nil, by rw [← hm]; exact h⟩
  | succ k ih =>
    intro m ids src hm h
    have hl := h.len
    have hml : m < ids.length := by omega
    rw [List.range'_succ]
    have hget : vget ids m = .ok ids[m] := vget_of_lt hml
    by_cases hx : ids[m] = inf
    · obtain ⟨es, hv, ht, hone⟩ := BfsEdges.bfs_edge_range3_correct g hg m (by omega)
      have hfew := h.few
      have hes : ∀ e ∈ es, e.1 < g.length ∧ Conn (Edge g) m e.1 := by
        by_cases hw : ∃ w, Edge g m w ∧ w ≠ m
        · intro e he
          obtain ⟨h1, d, h2, _⟩ := (ht hw).edge e he
          exact ⟨h1.src_lt, conn_of_walk h2.1⟩
        · have : es = [(m, m)] := hone (fun w hw' => by
            by_contra hne
            exact hw ⟨w, hw', hne⟩)
          subst this
          intro e he
          simp at he
          subst he
          exact ⟨by simp; omega, .refl _⟩
      have hI : Inv inf g (m + 1) (ids.set m src.length) (src ++ [m]) := by
        refine ⟨by simpa using hl, by simp; exact hfew, ?_, ?_⟩
        · intro v x hx
          rw [List.getElem?_set] at hx
          split at hx
          · rename_i heq
            subst heq
            cases hx
            exact .inr ⟨m, by simp, .refl _⟩
          · rcases h.lbl v x hx with h1 | ⟨s, h1, h2⟩
            · exact .inl h1
            · refine .inr ⟨s, ?_, h2⟩
              rw [List.getElem?_append_left (List.getElem?_eq_some_iff.mp h1).1]
              exact h1
        · intro v hv hx
          rw [List.getElem?_set] at hx
          split at hx
          · cases hx
            omega
          · exact h.all v (by omega) hx
      obtain ⟨ids', h1, h2⟩ := label_ok (c := src.length) (s := m) (by simp) (by omega) es hI hes
      obtain ⟨ids'', src'', h3, h4⟩ := ih (m + 1) ids' (src ++ [m]) (by omega) h2
      refine ⟨ids'', src'', .search (by rw [hget, hx]) hv (ids' := ids') ?_ (by simpa using h3), h4⟩
      rw [vset_of_lt hml]
      exact h1
    · obtain ⟨ids'', src'', h3, h4⟩ := ih (m + 1) ids src (by omega) ⟨hl, by have := h.few; omega, h.lbl, fun v hv => by
        by_cases hvm : v = m
        · subst hvm
          rw [List.getElem?_eq_getElem hml]
          simpa using hx
        · exact h.all v (by omega)⟩
      exact ⟨ids'', src'', .skip hget hx h3, h4⟩

theorem visits3_det {g : Rows α} {v : Nat} {o₁ o₂ : Res (List (Nat × Nat))} (h₁ : BfsEdges.Visits3 g v o₁) (h₂ : BfsEdges.Visits3 g v o₂) : o₁ = o₂ := by
  unfold BfsEdges.Visits3 at h₁ h₂
  split at h₁ <;> rename_i heq
  · rw [heq] at h₂
    exact Iter.Visits.det h₁ h₂
  · rw [heq] at h₂
    exact h₁.trans h₂.symm

/-- A run of the loop has one outcome. -/
theorem Go.det {inf : Nat} {g : Rows α} {vs ids : List Nat} {c : Nat} {o₁ o₂ : Res (List Nat)} (h₁ : Go inf g vs ids c o₁) (h₂ : Go inf g vs ids c o₂) :
    o₁ = o₂ := by
  induction h₁ with
  | nil => cases h₂; rfl
  | oob h => cases h₂ <;> simp_all
  | skip h hne _ ih =>
    cases h₂ with
    | skip _ _ h2 => exact ih h2
    | oob h' => simp_all
    | fault h' => simp_all
    | bad h' => simp_all
    | search h' => simp_all
  | fault h hv =>
    cases h₂ with
    | fault _ hv' => have := visits3_det hv hv'; simp_all
    | bad _ hv' => have := visits3_det hv hv'; simp_all
    | search _ hv' => have := visits3_det hv hv'; simp_all
    | oob h' => simp_all
    | skip h' => simp_all
  | bad h hv hb =>
    cases h₂ with
    | fault _ hv' => have := visits3_det hv hv'; simp_all
    | bad _ hv' hb' =>
      have := visits3_det hv hv'
      cases this
      rw [hb] at hb'
      cases hb'
      rfl
    | search _ hv' hb' =>
      have := visits3_det hv hv'
      cases this
      rw [hb] at hb'
      cases hb'
    | oob h' => simp_all
    | skip h' => simp_all
  | search h hv hb _ ih =>
    cases h₂ with
    | fault _ hv' => have := visits3_det hv hv'; simp_all
    | bad _ hv' hb' =>
      have := visits3_det hv hv'
      cases this
      rw [hb] at hb'
      cases hb'
    | search _ hv' hb' h' =>
      have := visits3_det hv hv'
      cases this
      rw [hb] at hb'
      cases hb'
      exact ih h'
    | oob h' => simp_all
    | skip h' => simp_all

/-- C88, for the search-based algorithm run in order, the half that holds: on every graph with in-range neighbours, starting with all labels unset, it ends
without a fault, gives every vertex a label, and vertices with equal labels are connected. -/
theorem bfs_cc_sound_partial (g : Rows α) (hg : InRange g) (inf : Nat) (hinf : g.length ≤ inf) :
    ∃ ids, Cc inf g (List.replicate g.length inf) (.ok ids) ∧ (∀ o, Cc inf g (List.replicate g.length inf) o → o = .ok ids) ∧
      ids.length = g.length ∧ (∀ l ∈ ids, l < g.length) ∧
      ∀ (u v l : Nat), ids[u]? = some l → ids[v]? = some l → Conn (Edge g) u v := by
  obtain ⟨ids, src, h1, h2⟩ := go_ok hg hinf g.length 0 (List.replicate g.length inf) [] (by omega)
    ⟨by simp, by simp, fun v x hx => .inl (List.eq_of_mem_replicate (List.mem_of_getElem? hx)), fun v hv => by omega⟩
  rw [← List.range_eq_range'] at h1
  have hmem : ∀ (u l : Nat), ids[u]? = some l → ∃ s, src[l]? = some s ∧ Conn (Edge g) s u := by
    intro u l hu
    have hlt : u < g.length := by rw [← h2.len]; exact (List.getElem?_eq_some_iff.mp hu).1
    rcases h2.lbl u l hu with h | h
    · subst h
      exact absurd hu (h2.all u hlt)
    · exact h
  refine ⟨ids, h1, fun o ho => (Go.det h1 ho).symm, h2.len, ?_, ?_⟩
  · intro l hl
    obtain ⟨u, hu⟩ := List.mem_iff_getElem?.mp hl
    obtain ⟨s, hs, _⟩ := hmem u l hu
    exact lt_of_lt_of_le (List.getElem?_eq_some_iff.mp hs).1 h2.few
  · intro u v l hu hv
    obtain ⟨s, hs, hc⟩ := hmem u l hu
    obtain ⟨s', hs', hc'⟩ := hmem v l hv
    rw [hs] at hs'
    cases hs'
    exact hc.symm.trans hc'

/-- The graph with the one undirected edge 0 — 1. -/
def exPair : Rows Unit := [[(1, ())], [(0, ())]]

/-- C88 is false of it: on the symmetric graph with the one edge 0 — 1 the two vertices, which are connected, always get different labels, for every value
of the unset label.  The loop labels the first component of each pair, the parent, so the last vertices reached are left out. -/
theorem bfs_cc_wrong (inf : Nat) :
    InRange exPair ∧ (∀ u v, Edge exPair u v → Edge exPair v u) ∧ Conn (Edge exPair) 0 1 ∧
    ∀ o, Cc inf exPair [inf, inf] o → o = .ok [0, 1] := by
  have h0 : BfsEdges.Visits3 exPair 0 (.ok [(0, 1)]) := Iter.visits_of_runFuel (n := 9) (by rfl)
  have h1 : BfsEdges.Visits3 exPair 1 (.ok [(1, 0)]) := Iter.visits_of_runFuel (n := 9) (by rfl)
  refine ⟨by decide, fun u v h => ?_, .of (by decide : Edge exPair 0 1), ?_⟩
  · have hu := h.src_lt
    have : ∀ u < 2, ∀ v ∈ nbrs exPair u, Edge exPair v u := by decide
    exact this u hu v h
  · intro o ho
    have : Cc inf exPair [inf, inf] (.ok [0, 1]) :=
      .search (v := 0) (vs := [1]) (ids' := [0, inf]) rfl h0 rfl (.search (v := 1) (vs := []) (ids' := [0, 1]) rfl h1 rfl .nil)
    exact Go.det ho this

/-- A case of both: labels 0 and 1 on the pair. -/
example : InRange exPair ∧ exPair.length ≤ 9 ∧ Cc 9 exPair (List.replicate exPair.length 9) (.ok [0, 1]) :=
  ⟨by decide, by decide, .search (v := 0) (vs := [1]) (ids' := [0, 9]) rfl (Iter.visits_of_runFuel (n := 9) (by rfl)) rfl
    (.search (v := 1) (vs := []) (ids' := [0, 1]) rfl (Iter.visits_of_runFuel (n := 9) (by rfl)) rfl .nil)⟩

end NW.BfsCc
