import Verif.Model.MaxFlow
import Verif.Lemmas.BackEdge
import Verif.Lemmas.Flow

/-!
# The network of max_flow: what is read and written through the locations of a `back_edge_range`
-/

namespace NW.MaxFlow
open Spec BackEdge

variable {R : Type} [CommRing R] [LinearOrder R] [IsStrictOrderedRing R]

section shape
variable {β : Type}

theorem first_map (row : List (Nat × β)) (v : Nat) : first row v = (row.map Prod.fst).findIdx? fun x => decide (x = v) := by
  unfold first
  rw [List.findIdx?_map]; rfl

theorem first_congr {g g' : Rows β} {v : Nat} (h : nbrs g' v = nbrs g v) (u : Nat) : first (g'.getD v []) u = first (g.getD v []) u := by
  unfold nbrs at h
  rw [first_map, first_map, h]

theorem first_of_nodup {row : List (Nat × β)} (h : (row.map Prod.fst).Nodup) {k : Nat} {e : Nat × β} (hk : row[k]? = some e) : first row e.1 = some k := by
  unfold first
  rw [List.findIdx?_eq_some_iff_getElem]
  obtain ⟨hkl, hke⟩ := List.getElem?_eq_some_iff.1 hk
  refine ⟨hkl, decide_eq_true (by rw [hke]), fun i hi => ?_⟩
  have hil : i < row.length := Nat.lt_trans hi hkl
  have : ¬ (row[i].1 = e.1) := by
    intro heq
    have h1 : (row.map Prod.fst)[i]'(by simpa using hil) = (row.map Prod.fst)[k]'(by simpa using hkl) := by
      rw [List.getElem_map, List.getElem_map, heq, hke]
    have := (List.Nodup.getElem_inj_iff h).1 h1
    omega
  simpa using this

/-- The graph with another edge at place `k` of row `v`. -/
def setEdge (g : Rows β) (v k : Nat) (e : Nat × β) : Rows β := g.set v ((g.getD v []).set k e)

theorem length_setEdge (g : Rows β) (v k : Nat) (e : Nat × β) : (setEdge g v k e).length = g.length := by unfold setEdge; simp

theorem row_setEdge {g : Rows β} {v k : Nat} {e : Nat × β} (hv : v < g.length) (a : Nat) :
    (setEdge g v k e).getD a [] = if a = v then (g.getD v []).set k e else g.getD a [] := by
  unfold setEdge
  exact getD_set _ _ _ _ _ hv

theorem nbrs_setEdge {g : Rows β} {v k u : Nat} (b : β) (hv : v < g.length) (h : first (g.getD v []) u = some k) (a : Nat) : nbrs (setEdge g v k (u, b)) a = nbrs g a := by
  unfold nbrs
  rw [row_setEdge hv]
  by_cases c : a = v
  · subst c
    rw [if_pos rfl]
    obtain ⟨e, e1, e2, -⟩ := first_some h
    rw [List.map_set]
    refine set_self ?_
    rw [List.getElem?_map, e1]
    simp [e2]
  · rw [if_neg c]

omit [LinearOrder R] [IsStrictOrderedRing R] in
theorem arc_of_first {g : Rows β} (x : β → R) {v u k : Nat} {e : Nat × β} (h : first (g.getD v []) u = some k) (hk : (g.getD v [])[k]? = some e) : arc g x v u = x e.2 := by
  obtain ⟨e', e1, e2, e3⟩ := first_some h
  rw [hk] at e1
  cases e1
  unfold arc
  rw [e3]

omit [LinearOrder R] [IsStrictOrderedRing R] in
theorem arc_of_not_edge {g : Rows β} (x : β → R) {v u : Nat} (h : ¬ Edge g v u) : arc g x v u = 0 := by
  unfold arc
  have : (g.getD v []).find? (fun e => decide (e.1 = u)) = none := by
    rw [List.find?_eq_none]
    intro e he
    have : e.1 ≠ u := fun heq => h (heq ▸ List.mem_map_of_mem he)
    simpa using this
  rw [this]

omit [LinearOrder R] [IsStrictOrderedRing R] in
theorem arc_setEdge {g : Rows β} (x : β → R) {v k u : Nat} (b : β) (hv : v < g.length) (h : first (g.getD v []) u = some k) (a w : Nat) :
    arc (setEdge g v k (u, b)) x a w = if a = v ∧ w = u then x b else arc g x a w := by
  have hk : k < (g.getD v []).length := by
    obtain ⟨e, e1, -⟩ := first_some h
    exact (List.getElem?_eq_some_iff.1 e1).1
  have hf : ∀ w, first ((setEdge g v k (u, b)).getD a []) w = first (g.getD a []) w := fun w => first_congr (nbrs_setEdge b hv h a) w
  by_cases ca : a = v
  · subst ca
    have hrow : (setEdge g a k (u, b)).getD a [] = (g.getD a []).set k (u, b) := by rw [row_setEdge hv, if_pos rfl]
    by_cases cw : w = u
    · subst cw
      rw [if_pos ⟨rfl, rfl⟩]
      exact arc_of_first x ((hf w).trans h) (by rw [hrow, List.getElem?_set_self hk])
    · rw [if_neg (fun h => cw h.2)]
      by_cases he : Edge g a w
      · obtain ⟨j, hj⟩ := (edge_iff_first g a w).1 he
        obtain ⟨e, e1, e2, -⟩ := first_some hj
        have hjk : j ≠ k := by
          rintro rfl
          obtain ⟨e', e1', e2', -⟩ := first_some h
          rw [e1] at e1'
          cases e1'
          exact cw (e2.symm.trans e2')
        rw [arc_of_first x hj e1]
        exact arc_of_first x ((hf w).trans hj) (by rw [hrow, List.getElem?_set_ne (Ne.symm hjk)]; exact e1)
      · rw [arc_of_not_edge x he]
        refine arc_of_not_edge x ?_
        unfold Edge at he ⊢
        rw [nbrs_setEdge b hv h]
        exact he
  · rw [if_neg (fun h => ca h.1)]
    unfold arc
    rw [row_setEdge hv, if_neg ca]

/-- Where the edge from `v` to `u` is delivered by the range. -/
def place (g : Rows β) (v u : Nat) : Loc :=
  match first (g.getD v []) u with
  | some k => .row v k
  | none => .ax v u

/-- Joined by an edge of either direction. -/
def Adj (g : Rows β) (v u : Nat) : Prop := Edge g v u ∨ Edge g u v

theorem Adj.symm {g : Rows β} {v u : Nat} (h : Adj g v u) : Adj g u v := Or.symm h

theorem Adj.lt {g : Rows β} (hg : InRange g) {v u : Nat} (h : Adj g v u) : v < g.length ∧ u < g.length := by
  rcases h with h | h
  · exact ⟨h.src_lt, hg _ _ h⟩
  · exact ⟨hg _ _ h, h.src_lt⟩

theorem Adj.ne {g : Rows β} (hs : Simple g) {v u : Nat} (h : Adj g v u) : v ≠ u := by
  rintro rfl
  rcases h with h | h <;> exact (hs v).2 h

end shape

/-- The capacity and the flow of the arc from `v` to `u`. -/
def C (s : Net R) (v u : Nat) : R := arc s.g Prod.fst v u
def F (s : Net R) (v u : Nat) : R := arc s.g Prod.snd v u

/-- The network is a complete `back_edge_range` over a graph with the edges and the capacities of `g0`, and the extra edges are empty. -/
structure Good (g0 : Rows (R × R)) (s : Net R) : Prop where
  inv : Inv (fun b => b = zero) s.g s
  comp : Complete s.g s
  len : s.g.length = g0.length
  nb : ∀ v, nbrs s.g v = nbrs g0 v
  cap : ∀ v u, C s v u = arc g0 Prod.fst v u

section good
variable {g0 : Rows (R × R)} {s : Net R}

omit [LinearOrder R] [IsStrictOrderedRing R] in
theorem Good.edge (h : Good g0 s) (v u : Nat) : Edge s.g v u ↔ Edge g0 v u := by
  unfold Edge; rw [h.nb]

omit [LinearOrder R] [IsStrictOrderedRing R] in
theorem Good.first (h : Good g0 s) (v u : Nat) : BackEdge.first (s.g.getD v []) u = BackEdge.first (g0.getD v []) u := first_congr (h.nb v) u

omit [LinearOrder R] [IsStrictOrderedRing R] in
theorem Good.ax (h : Good g0 s) {v u : Nat} (he : Edge g0 u v) (hn : ¬ Edge g0 v u) : at2 s.aextra v u = some (u, zero) := by
  have := ((h.comp u v ((h.edge u v).2 he)).2 (fun h' => hn ((h.edge v u).1 h'))).2.1
  obtain ⟨e, he'⟩ := Option.isSome_iff_exists.1 this
  obtain ⟨-, -, h3, h4⟩ := h.inv.ax _ _ _ he'
  rw [he']
  obtain ⟨e1, e2⟩ := e
  cases h3; cases h4; rfl

omit [LinearOrder R] [IsStrictOrderedRing R] in
theorem read_place (h : Good g0 s) (hg : InRange g0) {v u : Nat} (ha : Adj g0 v u) : read s (place g0 v u) = .ok (u, (C s v u, F s v u)) := by
  obtain ⟨hv, hu⟩ := ha.lt hg
  unfold place
  cases hf : BackEdge.first (g0.getD v []) u with
  | some k =>
    have hf' := (h.first v u).trans hf
    obtain ⟨e, e1, e2, -⟩ := first_some hf'
    show (do let r ← vget s.g v; vget r k) = _
    rw [vget_getD [] (by rw [h.len]; exact hv), res_bind_ok, vget_eq_ok.2 e1]
    unfold C F
    rw [arc_of_first _ hf' e1, arc_of_first _ hf' e1, ← e2]
  | none =>
    have hn := (not_edge_iff_first g0 v u).2 hf
    have hr : Edge g0 u v := ha.resolve_left hn
    have hat := h.ax hr hn
    unfold at2 at hat
    simp only [BackEdge.read]
    rw [vget_getD [] (by rw [h.inv.len3, h.len]; exact hv), res_bind_ok, hat]
    unfold C F
    rw [arc_of_not_edge _ (fun h' => hn ((h.edge v u).1 h')), arc_of_not_edge _ (fun h' => hn ((h.edge v u).1 h'))]
    rfl

omit [LinearOrder R] [IsStrictOrderedRing R] in
theorem known (h : Good g0 s) (hs : Simple g0) {v u : Nat} (ha : Adj g0 v u) : (at2 s.back v u).isSome = true ∨ (at2 s.bextra v u).isSome = true := by
  have hne := ha.ne hs
  by_cases h1 : Edge g0 u v
  · have h1' := (h.edge u v).2 h1
    by_cases h2 : Edge g0 v u
    · have h2' := (h.edge v u).2 h2
      left
      rcases Nat.lt_or_ge v u with c | c
      · exact (h.comp v u h2').1 h1' c
      · exact h.inv.pair u v h1' h2' ((h.comp u v h1').1 h2' (by omega))
    · exact Or.inl ((h.comp u v h1').2 (fun h' => h2 ((h.edge v u).1 h'))).2.2
  · have h2 : Edge g0 v u := ha.resolve_right h1
    exact Or.inr ((h.comp v u ((h.edge v u).2 h2)).2 (fun h' => h1 ((h.edge u v).1 h'))).1

omit [LinearOrder R] [IsStrictOrderedRing R] in
theorem counterpart_eq (h : Good g0 s) (v u : Nat) : counterpart s.g v u = counterpart g0 v u := by
  unfold counterpart; rw [h.first]

omit [LinearOrder R] [IsStrictOrderedRing R] in
theorem getBack_place (h : Good g0 s) (hg : InRange g0) (hs : Simple g0) {v u : Nat} (ha : Adj g0 v u) : getBack zero s v u = .ok (s, counterpart g0 v u) := by
  unfold getBack
  rw [lookup_eq h.inv (by rw [h.len]; exact (ha.lt hg).1), res_bind_ok, if_pos (known h hs ha), counterpart_eq h]
  rfl

omit [LinearOrder R] [IsStrictOrderedRing R] in
theorem read_back (h : Good g0 s) (hg : InRange g0) {v u : Nat} (ha : Adj g0 v u) : read s (counterpart g0 v u) = .ok (v, (C s u v, F s u v)) := by
  obtain ⟨hv, hu⟩ := ha.lt hg
  unfold counterpart
  cases hf : BackEdge.first (g0.getD u []) v with
  | some j =>
    have hf' := (h.first u v).trans hf
    obtain ⟨e, e1, e2, -⟩ := first_some hf'
    show (do let r ← vget s.g u; vget r j) = _
    rw [vget_getD [] (by rw [h.len]; exact hu), res_bind_ok, vget_eq_ok.2 e1]
    unfold C F
    rw [arc_of_first _ hf' e1, arc_of_first _ hf' e1, ← e2]
  | none =>
    have hn := (not_edge_iff_first g0 u v).2 hf
    have hn' : ¬ Edge s.g u v := fun h' => hn ((h.edge u v).1 h')
    have hr : Edge g0 v u := ha.resolve_right hn
    have := ((h.comp v u ((h.edge v u).2 hr)).2 hn').1
    obtain ⟨e, he'⟩ := Option.isSome_iff_exists.1 this
    obtain ⟨-, -, h3, h4⟩ := h.inv.bx _ _ _ he'
    unfold at2 at he'
    simp only [BackEdge.read]
    rw [vget_getD [] (by rw [h.inv.len2, h.len]; exact hv), res_bind_ok, he']
    unfold C F
    rw [arc_of_not_edge _ hn', arc_of_not_edge _ hn']
    obtain ⟨e1, e2⟩ := e
    cases h3; cases h4; rfl

omit [LinearOrder R] [IsStrictOrderedRing R] in
theorem inner_ok (h : Good g0 s) (hs : Simple g0) {v : Nat} (hv : v < g0.length) :
    ∃ ls, inner s v = .ok ls ∧ (∀ l ∈ ls, ∃ u, Adj g0 v u ∧ l = place g0 v u) ∧ ∀ u, Adj g0 v u → place g0 v u ∈ ls := by
  refine ⟨(List.range (s.g.getD v []).length).map (Loc.row v) ++ (s.aextra.getD v []).map fun p => Loc.ax v p.1, ?_, ?_, ?_⟩
  · unfold inner
    rw [vget_getD [] (by rw [h.len]; exact hv), res_bind_ok, vget_getD [] (by rw [h.inv.len3, h.len]; exact hv), res_bind_ok]
    rfl
  · intro l hl
    rcases List.mem_append.1 hl with hl | hl
    · obtain ⟨k, hk, rfl⟩ := List.mem_map.1 hl
      have hk := List.mem_range.1 hk
      have hf := first_of_nodup (row := s.g.getD v []) (by have := (hs v).1; rw [← h.nb] at this; exact this) (List.getElem?_eq_getElem hk)
      refine ⟨((s.g.getD v [])[k]).1, Or.inl ((h.edge _ _).1 (List.mem_map_of_mem (List.getElem_mem hk))), ?_⟩
      unfold place
      rw [← h.first, hf]
    · obtain ⟨p, hp, rfl⟩ := List.mem_map.1 hl
      have := h.inv.ax v p.1 p.2 (find_of_mem (h.inv.sort3 v) hp)
      have hn : ¬ Edge g0 v p.1 := fun h' => this.2.1 ((h.edge _ _).2 h')
      refine ⟨p.1, Or.inr ((h.edge _ _).1 this.1), ?_⟩
      unfold place
      rw [(not_edge_iff_first g0 v p.1).1 hn]
  · intro u ha
    unfold place
    cases hf : BackEdge.first (g0.getD v []) u with
    | some k =>
      refine List.mem_append_left _ (List.mem_map.2 ⟨k, List.mem_range.2 ?_, rfl⟩)
      obtain ⟨e, e1, -⟩ := first_some ((h.first v u).trans hf)
      exact (List.getElem?_eq_some_iff.1 e1).1
    | none =>
      have hn := (not_edge_iff_first g0 v u).2 hf
      have hat := h.ax (ha.resolve_left hn) hn
      refine List.mem_append_right _ ?_
      have : u ∈ (s.aextra.getD v []).map Prod.fst := by
        rw [mem_keys_iff]
        unfold at2 at hat
        rw [hat]; rfl
      obtain ⟨p, hp, rfl⟩ := List.mem_map.1 this
      exact List.mem_map.2 ⟨p, hp, rfl⟩

/-- The residual capacity. -/
def r (s : Net R) (v u : Nat) : R := C s v u - F s v u + F s u v

theorem filter_place (h : Good g0 s) (hg : InRange g0) (hs : Simple g0) {v u : Nat} (ha : Adj g0 v u) :
    filter s v (place g0 v u) = .ok (s, decide (r s v u ≤ 0)) := by
  unfold filter
  rw [read_place h hg ha, res_bind_ok, getBack_place h hg hs ha, res_bind_ok]
  dsimp only
  rw [read_back h hg ha, res_bind_ok]
  have : (F s v u ≥ C s v u + F s u v) ↔ r s v u ≤ 0 := by
    unfold r
    constructor <;> intro h <;> linarith
  simp only [this]
  rfl

omit [CommRing R] [LinearOrder R] [IsStrictOrderedRing R] in
theorem write_row {v u k : Nat} (hv : v < s.g.length) (hf : BackEdge.first (s.g.getD v []) u = some k) (b : R × R) :
    write s (.row v k) b = .ok { s with g := setEdge s.g v k (u, b) } := by
  obtain ⟨e, e1, e2, -⟩ := first_some hf
  unfold write
  dsimp only
  have hk := (List.getElem?_eq_some_iff.1 e1).1
  rw [vget_getD [] hv, res_bind_ok, vget_eq_ok.2 e1, res_bind_ok, vset_of_lt hk, res_bind_ok, vset_of_lt hv, res_bind_ok, e2]
  rfl

omit [LinearOrder R] [IsStrictOrderedRing R] in
theorem Good.set (h : Good g0 s) {v u k : Nat} (hv : v < g0.length) (hf : BackEdge.first (g0.getD v []) u = some k) (f : R) :
    Good g0 { s with g := setEdge s.g v k (u, (C s v u, f)) } ∧
    ∀ a w, F { s with g := setEdge s.g v k (u, (C s v u, f)) } a w = if a = v ∧ w = u then f else F s a w := by
  have hv' : v < s.g.length := by rw [h.len]; exact hv
  have hf' := (h.first v u).trans hf
  have hnb : ∀ a, nbrs (setEdge s.g v k (u, (C s v u, f))) a = nbrs s.g a := nbrs_setEdge _ hv' hf'
  have hed : ∀ a w, Edge (setEdge s.g v k (u, (C s v u, f))) a w ↔ Edge s.g a w := fun a w => by unfold Edge; rw [hnb]
  have hi := h.inv
  refine ⟨⟨⟨rfl, ?_, ?_, ?_, hi.sort1, hi.sort2, hi.sort3, ?_, ?_, ?_, ?_⟩, ?_, ?_, ?_, ?_⟩, ?_⟩
  · rw [length_setEdge]; exact hi.len1
  · rw [length_setEdge]; exact hi.len2
  · rw [length_setEdge]; exact hi.len3
  · intro a w p hp
    rw [first_congr (hnb w)]
    exact hi.back a w p hp
  · intro a w e he
    rw [hed, hed]
    exact hi.bx a w e he
  · intro a w e he
    rw [hed, hed]
    exact hi.ax a w e he
  · intro a w h1 h2 h3
    exact hi.pair a w ((hed a w).1 h1) ((hed w a).1 h2) h3
  · intro a w he
    have := h.comp a w ((hed a w).1 he)
    refine ⟨fun h1 => this.1 ((hed w a).1 h1), fun h1 => this.2 (fun h' => h1 ((hed w a).2 h'))⟩
  · rw [length_setEdge]; exact h.len
  · intro a; rw [hnb, h.nb]
  · intro a w
    unfold C
    simp only
    rw [arc_setEdge _ _ hv' hf']
    split
    · rename_i c; rw [c.1, c.2]; exact h.cap v u
    · exact h.cap a w
  · intro a w
    unfold F
    simp only
    rw [arc_setEdge _ _ hv' hf']

theorem update_update {X : Type} (m : SMap X) (k : Nat) (f f' : X → X) : update (update m k f) k f' = update m k (fun x => f' (f x)) := by
  induction m with
  | nil => rfl
  | cons a m ih =>
    obtain ⟨k0, x0⟩ := a
    by_cases c : k0 = k
    · simp [update, c]
    · simp only [update, if_neg c, ih]

theorem update_self {X : Type} {m : SMap X} {k : Nat} {x : X} (h : find m k = some x) {f : X → X} (hf : f x = x) : update m k f = m := by
  induction m with
  | nil => rfl
  | cons a m ih =>
    obtain ⟨k0, x0⟩ := a
    unfold find at h
    by_cases c : k0 = k
    · rw [if_pos c] at h
      cases h
      simp only [update, if_pos c, hf]
    · rw [if_neg c] at h
      simp only [update, if_neg c, ih h]

omit [LinearOrder R] [IsStrictOrderedRing R] in
/-- An extra edge is changed and restored. -/
theorem write_ax (h : Good g0 s) (hg : InRange g0) {v u : Nat} (he : Edge g0 u v) (hn : ¬ Edge g0 v u) (b : R × R) :
    ∃ s1, write s (.ax v u) b = .ok s1 ∧ read s1 (.ax v u) = .ok (u, b) ∧ write s1 (.ax v u) zero = .ok s := by
  have hat := h.ax he hn
  unfold at2 at hat
  have hl : v < s.aextra.length := by rw [h.inv.len3, h.len]; exact hg _ _ he
  refine ⟨{ s with aextra := s.aextra.set v (update (s.aextra.getD v []) u fun e => (e.1, b)) }, ?_, ?_, ?_⟩
  · unfold write
    dsimp only
    rw [vget_getD [] hl, res_bind_ok, vset_of_lt hl]; rfl
  · simp only [BackEdge.read]
    rw [vget_getD [] (by simpa using hl), res_bind_ok, getD_set _ _ _ _ _ hl, if_pos rfl, find_update, if_pos rfl, hat]
    rfl
  · unfold write
    dsimp only
    rw [vget_getD [] (by simpa using hl), res_bind_ok, getD_set _ _ _ _ _ hl, if_pos rfl, vset_of_lt (by simpa using hl), update_update, update_self (f := fun e => (e.1, zero)) hat rfl, List.set_set,
      set_self (by rw [List.getD_eq_getElem?_getD, List.getElem?_eq_getElem hl]; rfl)]
    rfl

/-- Sending `m` from `v` to `u`. -/
theorem push_ok (h : Good g0 s) (hg : InRange g0) (hs : Simple g0) {v u : Nat} (ha : Adj g0 v u) {m : R} (hm : 0 < m) (hr : m ≤ r s v u)
    (hfeas : ∀ a b, 0 ≤ F s a b ∧ F s a b ≤ C s a b) :
    ∃ s', push m s { loc := place g0 v u, back := counterpart g0 v u, pred := v } = .ok s' ∧ Good g0 s' ∧ (∀ a b, 0 ≤ F s' a b ∧ F s' a b ≤ C s' a b) ∧
      F s' v u - F s' u v = F s v u - F s u v + m ∧ ∀ a b, ¬ (a = v ∧ b = u) → ¬ (a = u ∧ b = v) → F s' a b = F s a b := by
  have hne := ha.ne hs
  obtain ⟨hv, hu⟩ := ha.lt hg
  unfold r at hr
  have hcap : ∀ {s'}, Good g0 s' → ∀ a b, C s' a b = C s a b := fun h' a b => (h'.cap a b).trans (h.cap a b).symm
  -- the last step if the edge is full
  have hback : ∀ s2, Good g0 s2 → F s u v > 0 → (∀ a b, F s2 a b = if a = v ∧ b = u then C s v u else F s a b) → F s v u + m - C s v u > 0 →
      ∃ s', (do let b ← read s2 (counterpart g0 v u); write s2 (counterpart g0 v u) (b.2.1, b.2.2 - (F s v u + m - C s v u))) = .ok s' ∧ Good g0 s' ∧
      (∀ a b, 0 ≤ F s' a b ∧ F s' a b ≤ C s' a b) ∧
      F s' v u - F s' u v = F s v u - F s u v + m ∧ ∀ a b, ¬ (a = v ∧ b = u) → ¬ (a = u ∧ b = v) → F s' a b = F s a b := by
    intro s2 h2 hpos hF hex
    have hE : Edge g0 u v := by
      by_contra hn
      have : F s u v = 0 := arc_of_not_edge _ (fun h' => hn ((h.edge u v).1 h'))
      linarith
    obtain ⟨j, hj⟩ := (edge_iff_first g0 u v).1 hE
    rw [read_back h2 hg ha, res_bind_ok]
    dsimp only
    have hc : counterpart g0 v u = .row u j := by unfold counterpart; rw [hj]
    rw [hc, write_row (by rw [h2.len]; exact hu) ((h2.first u v).trans hj)]
    obtain ⟨g3, f3⟩ := h2.set hu hj (F s2 u v - (F s v u + m - C s v u))
    have e1 : F s2 u v = F s u v := by rw [hF, if_neg (fun h => hne h.1.symm)]
    have f4 : ∀ a b, F { s2 with g := setEdge s2.g u j (v, (C s2 u v, F s2 u v - (F s v u + m - C s v u))) } a b =
        if a = u ∧ b = v then F s u v - (F s v u + m - C s v u) else if a = v ∧ b = u then C s v u else F s a b := by
      intro a b
      rw [f3, e1, hF]
    refine ⟨_, rfl, g3, ?_, ?_, ?_⟩
    · intro a b
      rw [f4, hcap g3]
      have hab := hfeas a b
      have huv := hfeas u v
      have hvu := hfeas v u
      split
      · rename_i c; rw [c.1, c.2]; constructor <;> linarith
      · split
        · rename_i c; rw [c.1, c.2]; constructor <;> linarith
        · exact hab
    · rw [f4, f4, if_neg (fun h => hne h.1), if_pos ⟨rfl, rfl⟩, if_pos ⟨rfl, rfl⟩]
      ring
    · intro a b h1 h2
      rw [f4, if_neg h2, if_neg h1]
  unfold push
  dsimp only
  rw [read_place h hg ha, res_bind_ok]
  dsimp only
  cases hf : BackEdge.first (g0.getD v []) u with
  | some k =>
    have hp : place g0 v u = .row v k := by unfold place; rw [hf]
    obtain ⟨g1, f1⟩ := h.set hv hf (F s v u + m)
    have hw := write_row (s := s) (by rw [h.len]; exact hv) ((h.first v u).trans hf) (C s v u, F s v u + m)
    rw [hp, hw, res_bind_ok, ← hp, read_place g1 hg ha, res_bind_ok]
    dsimp only
    have hfv := f1 v u
    rw [if_pos (And.intro rfl rfl)] at hfv
    rw [hcap g1, hfv]
    by_cases c : F s v u + m - C s v u > 0
    · rw [if_pos c, hp, write_row (by rw [g1.len]; exact hv) ((g1.first v u).trans hf), res_bind_ok]
      obtain ⟨g2, f2⟩ := g1.set hv hf (C s v u)
      rw [hcap g1] at g2 f2
      exact hback _ g2 (by linarith) (fun a b => by rw [f2, f1]; split <;> rfl) c
    · rw [if_neg c]
      refine ⟨_, rfl, g1, ?_, ?_, ?_⟩
      · intro a b
        rw [f1, hcap g1]
        have hab := hfeas a b
        have hvu := hfeas v u
        split
        · rename_i c; rw [c.1, c.2]; constructor <;> linarith
        · exact hab
      · rw [f1, f1, if_pos ⟨rfl, rfl⟩, if_neg (fun h => hne h.1.symm)]
        ring
      · intro a b h1 h2
        rw [f1, if_neg h1]
  | none =>
    have hn := (not_edge_iff_first g0 v u).2 hf
    have hE : Edge g0 u v := ha.resolve_left hn
    have hp : place g0 v u = .ax v u := by unfold place; rw [hf]
    have hn' : ¬ Edge s.g v u := fun h' => hn ((h.edge v u).1 h')
    have hC : C s v u = 0 := arc_of_not_edge _ hn'
    have hF : F s v u = 0 := arc_of_not_edge _ hn'
    obtain ⟨s1, w1, w2, w3⟩ := write_ax h hg hE hn (C s v u, F s v u + m)
    rw [hp, w1, res_bind_ok, w2, res_bind_ok]
    dsimp only
    rw [if_pos (show F s v u + m - C s v u > 0 by rw [hC, hF]; linarith)]
    have : ((C s v u, C s v u) : R × R) = zero := by rw [hC]; rfl
    rw [this, w3, res_bind_ok]
    refine hback s h ?_ ?_ ?_
    · rw [hC, hF] at hr; linarith
    · intro a b
      split
      · rename_i c; rw [c.1, c.2, hF, hC]
      · rfl
    · rw [hC, hF]; linarith

end good

end NW.MaxFlow
