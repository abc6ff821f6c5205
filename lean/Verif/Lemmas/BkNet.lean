import Verif.Model.BoykovKolmogorov
import Verif.Lemmas.MaxFlow
import Verif.Spec.Terminals

/-!
# The network of `bk_maxflow` if every edge has a stored counterpart
-/

namespace NW.Bk
open Spec BackEdge
open MaxFlow (place setEdge first_congr first_of_nodup nbrs_setEdge arc_setEdge arc_of_first arc_of_not_edge length_setEdge)

variable {R : Type} [CommRing R] [LinearOrder R] [IsStrictOrderedRing R]

/-- The residual capacity from `v` to `u`. -/
def res (net : BE R) (v u : Nat) : R := arc net.g id v u

/-- The network is a complete `back_edge_range` over a graph with the edges of `g0`. -/
structure Good (g0 : Rows R) (s : BE R) : Prop where
  inv : Inv (fun b => b = 0) s.g s
  comp : Complete s.g s
  len : s.g.length = g0.length
  nb : ∀ v, nbrs s.g v = nbrs g0 v

section good
variable {g0 : Rows R} {s : BE R}

omit [LinearOrder R] [IsStrictOrderedRing R] in
theorem Good.edge (h : Good g0 s) (v u : Nat) : Edge s.g v u ↔ Edge g0 v u := by
  unfold Edge; rw [h.nb]

omit [LinearOrder R] [IsStrictOrderedRing R] in
theorem Good.first (h : Good g0 s) (v u : Nat) : BackEdge.first (s.g.getD v []) u = BackEdge.first (g0.getD v []) u := first_congr (h.nb v) u

omit [LinearOrder R] [IsStrictOrderedRing R] in
theorem read_place (h : Good g0 s) {v u : Nat} (ha : Edge g0 v u) : read s (place g0 v u) = .ok (u, res s v u) := by
  have hv := ha.src_lt
  unfold place
  obtain ⟨k, hf⟩ := (edge_iff_first g0 v u).1 ha
  rw [hf]
  have hf' := (h.first v u).trans hf
  obtain ⟨e, e1, e2, -⟩ := first_some hf'
  show (do let r ← vget s.g v; vget r k) = _
  rw [vget_getD [] (by rw [h.len]; exact hv), res_bind_ok, vget_eq_ok.2 e1]
  unfold res
  rw [arc_of_first _ hf' e1, ← e2]
  rfl

omit [CommRing R] [LinearOrder R] [IsStrictOrderedRing R] in
theorem counterpart_place {v u : Nat} (ha : Edge g0 u v) : counterpart g0 v u = place g0 u v := by
  unfold counterpart place
  obtain ⟨k, hf⟩ := (edge_iff_first g0 u v).1 ha
  rw [hf]

omit [LinearOrder R] [IsStrictOrderedRing R] in
theorem getBack_place (h : Good g0 s) (hs : Simple g0) (hy : Symm g0) {v u : Nat} (ha : Edge g0 v u) : getBack 0 s v u = .ok (s, place g0 u v) := by
  have hne : v ≠ u := by rintro rfl; exact (hs v).2 ha
  have h2 := (h.edge v u).2 ha
  have h1 := (h.edge u v).2 (hy _ _ ha)
  have known : (at2 s.back v u).isSome = true := by
    rcases Nat.lt_or_ge v u with c | c
    · exact (h.comp v u h2).1 h1 c
    · exact h.inv.pair u v h1 h2 ((h.comp u v h1).1 h2 (by omega))
  unfold getBack
  rw [lookup_eq h.inv (by rw [h.len]; exact ha.src_lt), res_bind_ok, if_pos (Or.inl known)]
  have : counterpart s.g v u = counterpart g0 v u := by unfold counterpart; rw [h.first]
  rw [this, counterpart_place (hy _ _ ha)]
  rfl

omit [LinearOrder R] [IsStrictOrderedRing R] in
theorem inner_ok (h : Good g0 s) (hs : Simple g0) (hy : Symm g0) {v : Nat} (hv : v < g0.length) :
    ∃ ls, inner s v = .ok ls ∧ (∀ l ∈ ls, ∃ u, Edge g0 v u ∧ l = place g0 v u) ∧ ∀ u, Edge g0 v u → place g0 v u ∈ ls := by
  have hax : s.aextra.getD v [] = [] := by
    cases c : s.aextra.getD v [] with
    | nil => rfl
    | cons p m =>
      have := h.inv.ax v p.1 p.2 (find_of_mem (h.inv.sort3 v) (by rw [c]; simp))
      exact absurd ((h.edge v p.1).2 (hy _ _ ((h.edge _ _).1 this.1))) this.2.1
  refine ⟨(List.range (s.g.getD v []).length).map (Loc.row v), ?_, ?_, ?_⟩
  · unfold inner
    rw [vget_getD [] (by rw [h.len]; exact hv), res_bind_ok, vget_getD [] (by rw [h.inv.len3, h.len]; exact hv), res_bind_ok, hax]
    simp [pure, Except.pure]
  · intro l hl
    obtain ⟨k, hk, rfl⟩ := List.mem_map.1 hl
    have hk := List.mem_range.1 hk
    have hf := first_of_nodup (row := s.g.getD v []) (by have := (hs v).1; rw [← h.nb] at this; exact this) (List.getElem?_eq_getElem hk)
    refine ⟨((s.g.getD v [])[k]).1, (h.edge _ _).1 (List.mem_map_of_mem (List.getElem_mem hk)), ?_⟩
    unfold place
    rw [← h.first, hf]
  · intro u ha
    unfold place
    obtain ⟨k, hf⟩ := (edge_iff_first g0 v u).1 ha
    rw [hf]
    refine List.mem_map.2 ⟨k, List.mem_range.2 ?_, rfl⟩
    obtain ⟨e, e1, -⟩ := first_some ((h.first v u).trans hf)
    exact (List.getElem?_eq_some_iff.1 e1).1

omit [LinearOrder R] [IsStrictOrderedRing R] in
theorem write_place (h : Good g0 s) {v u : Nat} (ha : Edge g0 v u) (x : R) :
    ∃ s', write s (place g0 v u) x = .ok s' ∧ Good g0 s' ∧ ∀ a w, res s' a w = if a = v ∧ w = u then x else res s a w := by
  obtain ⟨k, hf⟩ := (edge_iff_first g0 v u).1 ha
  have hv' : v < s.g.length := by rw [h.len]; exact ha.src_lt
  have hf' := (h.first v u).trans hf
  have hnb : ∀ a, nbrs (setEdge s.g v k (u, x)) a = nbrs s.g a := nbrs_setEdge _ hv' hf'
  have hed : ∀ a w, Edge (setEdge s.g v k (u, x)) a w ↔ Edge s.g a w := fun a w => by unfold Edge; rw [hnb]
  have hi := h.inv
  refine ⟨{ s with g := setEdge s.g v k (u, x) }, ?_, ⟨⟨rfl, ?_, ?_, ?_, hi.sort1, hi.sort2, hi.sort3, ?_, ?_, ?_, ?_⟩, ?_, ?_, ?_⟩, ?_⟩
  · unfold place
    rw [hf]
    obtain ⟨e, e1, e2, -⟩ := first_some hf'
    unfold write
    dsimp only
    have hk := (List.getElem?_eq_some_iff.1 e1).1
    rw [vget_getD [] hv', res_bind_ok, vget_eq_ok.2 e1, res_bind_ok, vset_of_lt hk, res_bind_ok, vset_of_lt hv', res_bind_ok, e2]
    rfl
  · rw [length_setEdge]; exact hi.len1
  · rw [length_setEdge]; exact hi.len2
  · rw [length_setEdge]; exact hi.len3
  · intro a w p hp
    rw [first_congr (hnb w)]
    exact hi.back a w p hp
  · intro a w e he
    rw [hed, hed]
    exact hi.bx a w e he
  · intro a w e he
    rw [hed, hed]
    exact hi.ax a w e he
  · intro a w h1 h2 h3
    exact hi.pair a w ((hed a w).1 h1) ((hed w a).1 h2) h3
  · intro a w he
    have := h.comp a w ((hed a w).1 he)
    refine ⟨fun h1 => this.1 ((hed w a).1 h1), fun h1 => this.2 (fun h' => h1 ((hed w a).2 h'))⟩
  · rw [length_setEdge]; exact h.len
  · intro a; rw [hnb, h.nb]
  · intro a w
    unfold res
    simp only
    rw [arc_setEdge _ _ hv' hf']
    rfl

omit [LinearOrder R] [IsStrictOrderedRing R] in
/-- Moving `m` from the capacity of one direction to the other. -/
theorem shift_ok (h : Good g0 s) (hs : Simple g0) (hy : Symm g0) {v u : Nat} (ha : Edge g0 v u) (m : R) :
    ∃ s', shift s (place g0 v u) (place g0 u v) m = .ok s' ∧ Good g0 s' ∧
      ∀ a w, res s' a w = if a = v ∧ w = u then res s v u - m else if a = u ∧ w = v then res s u v + m else res s a w := by
  have hne : v ≠ u := by rintro rfl; exact (hs v).2 ha
  unfold shift
  rw [read_place h ha, res_bind_ok]
  obtain ⟨s1, w1, w2, w3⟩ := write_place h ha (res s v u - m)
  rw [w1, res_bind_ok, read_place w2 (hy _ _ ha), res_bind_ok]
  obtain ⟨s2, x1, x2, x3⟩ := write_place w2 (hy _ _ ha) (res s1 u v + m)
  refine ⟨s2, x1, x2, ?_⟩
  intro a w
  rw [x3]
  by_cases c1 : a = v ∧ w = u
  · rw [if_pos c1, if_neg (fun h => hne (c1.1.symm.trans h.1)), w3, if_pos c1]
  · rw [if_neg c1]
    by_cases c2 : a = u ∧ w = v
    · rw [if_pos c2, if_pos c2, w3, if_neg (fun h => hne h.1.symm)]
    · rw [if_neg c2, if_neg c2, w3, if_neg c1]

end good

end NW.Bk
