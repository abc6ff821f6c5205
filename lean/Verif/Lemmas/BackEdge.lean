import Verif.Model.BackEdge
import Verif.Lemmas.ListRes

/-!
# Ordered maps and the construction of a `back_edge_range`
-/

namespace NW.BackEdge
open Spec

variable {β X : Type}

def Sorted (m : SMap X) : Prop := (m.map Prod.fst).Pairwise (· < ·)

theorem find_none_of_lt {m : SMap X} {k : Nat} (h : ∀ k' ∈ m.map Prod.fst, k < k') : find m k = none := by
  induction m with
  | nil => rfl
  | cons a m ih =>
    obtain ⟨k', x⟩ := a
    have := h k' (by simp)
    unfold find
    rw [if_neg (by omega)]
    exact ih fun k'' hk => h k'' (by rw [List.map_cons]; exact List.mem_cons_of_mem _ hk)

theorem find_emplace {m : SMap X} (hm : Sorted m) (k : Nat) (x : X) (k' : Nat) : find (emplace m k x) k' = if k' = k then some ((find m k).getD x) else find m k' := by
  induction m with
  | nil =>
    unfold emplace find
    by_cases c : k' = k
    · subst c; simp
    · rw [if_neg (Ne.symm c), if_neg c]; rfl
  | cons a m ih =>
    obtain ⟨k0, x0⟩ := a
    unfold Sorted at hm
    rw [List.map_cons, List.pairwise_cons] at hm
    unfold emplace
    by_cases c1 : k < k0
    · rw [if_pos c1]
      have hn : find ((k0, x0) :: m) k = none := by
        refine find_none_of_lt ?_
        intro k'' hk
        rw [List.map_cons] at hk
        rcases List.mem_cons.1 hk with h | h
        · rw [h]; exact c1
        · exact Nat.lt_trans c1 (hm.1 k'' h)
      rw [hn]
      by_cases c : k' = k
      · subst c; rw [if_pos rfl]; show (if k' = k' then _ else _) = _; rw [if_pos rfl]; rfl
      · rw [if_neg c]; show (if k = k' then _ else _) = _; rw [if_neg (Ne.symm c)]
    · rw [if_neg c1]
      by_cases c2 : k = k0
      · rw [if_pos c2]
        subst c2
        by_cases c : k' = k
        · subst c; rw [if_pos rfl]; simp [find]
        · rw [if_neg c]
      · rw [if_neg c2]
        by_cases c : k0 = k'
        · subst c
          rw [if_neg (Ne.symm c2)]
          simp [find]
        · have e1 : find ((k0, x0) :: emplace m k x) k' = find (emplace m k x) k' := by
            show (if k0 = k' then _ else _) = _; rw [if_neg c]
          have e2 : find ((k0, x0) :: m) k' = find m k' := by
            show (if k0 = k' then _ else _) = _; rw [if_neg c]
          have e3 : find ((k0, x0) :: m) k = find m k := by
            show (if k0 = k then _ else _) = _; rw [if_neg (Ne.symm c2)]
          rw [e1, e2, e3, ih hm.2]

theorem keys_emplace (m : SMap X) (k : Nat) (x : X) (k' : Nat) : k' ∈ (emplace m k x).map Prod.fst ↔ k' = k ∨ k' ∈ m.map Prod.fst := by
  induction m with
  | nil => simp [emplace]
  | cons a m ih =>
    obtain ⟨k0, x0⟩ := a
    unfold emplace
    split
    · simp
    · split
      · rename_i h; subst h; simp
      · simp only [List.map_cons, List.mem_cons, ih]
        constructor
        · rintro (h | h | h) <;> simp [h]
        · rintro (h | h | h) <;> simp [h]

theorem Sorted.emplace {m : SMap X} (hm : Sorted m) (k : Nat) (x : X) : Sorted (emplace m k x) := by
  induction m with
  | nil => simp [BackEdge.emplace, Sorted]
  | cons a m ih =>
    obtain ⟨k0, x0⟩ := a
    have hm' := hm
    unfold Sorted at hm
    rw [List.map_cons, List.pairwise_cons] at hm
    unfold BackEdge.emplace
    split
    · rename_i h
      unfold Sorted
      rw [List.map_cons, List.pairwise_cons]
      refine ⟨?_, hm'⟩
      intro k' hk
      rw [List.map_cons] at hk
      rcases List.mem_cons.1 hk with h' | h'
      · rw [h']; exact h
      · exact Nat.lt_trans h (hm.1 k' h')
    · split
      · exact hm'
      · unfold Sorted
        rw [List.map_cons, List.pairwise_cons]
        refine ⟨?_, ih hm.2⟩
        intro k' hk
        rcases (keys_emplace m k x k').1 hk with h | h
        · simp only; omega
        · exact hm.1 k' h

theorem mem_keys_iff {m : SMap X} {k : Nat} : k ∈ m.map Prod.fst ↔ (find m k).isSome = true := by
  induction m with
  | nil => simp [find]
  | cons a m ih =>
    obtain ⟨k0, x0⟩ := a
    unfold find
    by_cases c : k0 = k
    · subst c; simp
    · rw [if_neg c, ← ih]; simp [Ne.symm c]

theorem find_of_mem {m : SMap X} (hm : Sorted m) {p : Nat × X} (hp : p ∈ m) : find m p.1 = some p.2 := by
  induction m with
  | nil => cases hp
  | cons a m ih =>
    obtain ⟨k0, x0⟩ := a
    unfold Sorted at hm
    rw [List.map_cons, List.pairwise_cons] at hm
    unfold find
    rcases List.mem_cons.1 hp with h | h
    · rw [h, if_pos rfl]
    · have := hm.1 p.1 (List.mem_map_of_mem h)
      rw [if_neg (by simp only at this; omega)]
      exact ih hm.2 h

theorem find_update (m : SMap X) (k : Nat) (f : X → X) (k' : Nat) : find (update m k f) k' = if k' = k then (find m k).map f else find m k' := by
  induction m with
  | nil => simp [update, find]
  | cons a m ih =>
    obtain ⟨k0, x0⟩ := a
    unfold update
    by_cases c : k0 = k
    · subst c
      rw [if_pos rfl]
      by_cases c' : k' = k0
      · subst c'; simp [find]
      · rw [if_neg c']
        show (if k0 = k' then _ else _) = if k0 = k' then _ else _
        rw [if_neg (Ne.symm c'), if_neg (Ne.symm c')]
    · rw [if_neg c]
      by_cases c' : k0 = k'
      · subst c'
        rw [if_neg c]; simp [find]
      · show (if k0 = k' then _ else find (update m k f) k') = if k' = k then (if k0 = k then _ else find m k).map f else if k0 = k' then _ else find m k'
        rw [if_neg c', if_neg c, if_neg c', ih]

theorem keys_update (m : SMap X) (k : Nat) (f : X → X) : (update m k f).map Prod.fst = m.map Prod.fst := by
  induction m with
  | nil => rfl
  | cons a m ih =>
    obtain ⟨k0, x0⟩ := a
    unfold update
    split
    · rfl
    · rw [List.map_cons, List.map_cons, ih]

theorem sorted_ext {l l' : List Nat} (h : l.Pairwise (· < ·)) (h' : l'.Pairwise (· < ·)) (hm : ∀ x, x ∈ l ↔ x ∈ l') : l = l' := by
  induction l generalizing l' with
  | nil =>
    cases l' with
    | nil => rfl
    | cons a l' => exact absurd ((hm a).2 (by simp)) (by simp)
  | cons a l ih =>
    cases l' with
    | nil => exact absurd ((hm a).1 (by simp)) (by simp)
    | cons b l' =>
      rw [List.pairwise_cons] at h h'
      have e : a = b := by
        rcases List.mem_cons.1 ((hm a).1 (by simp)) with e | e
        · exact e
        · rcases List.mem_cons.1 ((hm b).2 (by simp)) with e' | e'
          · exact e'.symm
          · have := h'.1 a e; have := h.1 b e'; omega
      subst e
      congr 1
      refine ih h.2 h'.2 fun x => ?_
      constructor
      · intro hx
        rcases List.mem_cons.1 ((hm x).1 (List.mem_cons_of_mem _ hx)) with e | e
        · have := h.1 x hx; omega
        · exact e
      · intro hx
        rcases List.mem_cons.1 ((hm x).2 (List.mem_cons_of_mem _ hx)) with e | e
        · have := h'.1 x hx; omega
        · exact e

/-- The entry `l[v][u]`. -/
def at2 (l : List (SMap X)) (v u : Nat) : Option X := find (l.getD v []) u

theorem vget_getD {Y : Type} {l : List Y} {v : Nat} (d : Y) (h : v < l.length) : vget l v = .ok (l.getD v d) := by
  rw [vget_of_lt h, List.getD_eq_getElem?_getD, List.getElem?_eq_getElem h]; rfl

theorem getD_set {Y : Type} (l : List Y) (v : Nat) (x : Y) (v' : Nat) (d : Y) (h : v < l.length) : (l.set v x).getD v' d = if v' = v then x else l.getD v' d := by
  rw [List.getD_eq_getElem?_getD, List.getD_eq_getElem?_getD]
  by_cases c : v' = v
  · subst c; rw [if_pos rfl, List.getElem?_set_self h]; rfl
  · rw [if_neg c, List.getElem?_set_ne (Ne.symm c)]

theorem at2_emplace {l : List (SMap X)} {v : Nat} (hv : v < l.length) (hs : Sorted (l.getD v [])) (u : Nat) (x : X) (v' u' : Nat) :
    at2 (l.set v (emplace (l.getD v []) u x)) v' u' = if v' = v ∧ u' = u then some ((at2 l v u).getD x) else at2 l v' u' := by
  unfold at2
  rw [getD_set _ _ _ _ _ hv]
  by_cases c : v' = v
  · subst c
    rw [if_pos rfl, find_emplace hs]
    by_cases c2 : u' = u
    · rw [if_pos c2, if_pos ⟨rfl, c2⟩]
    · rw [if_neg c2, if_neg (fun h => c2 h.2)]
  · rw [if_neg c, if_neg (fun h => c h.1)]

theorem sorted_set {l : List (SMap X)} {v : Nat} (hv : v < l.length) (hs : ∀ v, Sorted (l.getD v [])) {m : SMap X} (hm : Sorted m) (v' : Nat) :
    Sorted ((l.set v m).getD v' []) := by
  rw [getD_set _ _ _ _ _ hv]
  split
  · exact hm
  · exact hs v'

theorem edge_iff_first (g : Rows β) (u v : Nat) : Edge g u v ↔ ∃ j, first (g.getD u []) v = some j := by
  unfold Edge nbrs first
  rw [← Option.isSome_iff_exists, List.findIdx?_isSome, List.any_eq_true]
  constructor
  · intro h
    obtain ⟨e, he, rfl⟩ := List.mem_map.1 h
    exact ⟨e, he, by simp⟩
  · rintro ⟨e, he, h⟩
    exact List.mem_map.2 ⟨e, he, by simpa using h⟩

theorem not_edge_iff_first (g : Rows β) (u v : Nat) : ¬ Edge g u v ↔ first (g.getD u []) v = none := by
  rw [edge_iff_first]
  cases first (g.getD u []) v <;> simp

theorem first_some {row : List (Nat × β)} {v j : Nat} (h : first row v = some j) : ∃ e, row[j]? = some e ∧ e.1 = v ∧ row.find? (fun e => decide (e.1 = v)) = some e := by
  unfold first at h
  have h1 := List.findIdx?_eq_some_iff_getElem.1 h
  obtain ⟨hj, h2, h3⟩ := h1
  refine ⟨row[j], List.getElem?_eq_getElem hj, by simpa using h2, ?_⟩
  rw [List.find?_eq_some_iff_getElem]
  exact ⟨h2, j, hj, rfl, fun i hi => by simpa using h3 i hi⟩

/-- What holds whenever `g` is the underlying graph; the extra edges satisfy `P`. -/
structure Inv (P : β → Prop) (g : Rows β) (s : BE β) : Prop where
  g_eq : s.g = g
  len1 : s.back.length = g.length
  len2 : s.bextra.length = g.length
  len3 : s.aextra.length = g.length
  sort1 : ∀ v, Sorted (s.back.getD v [])
  sort2 : ∀ v, Sorted (s.bextra.getD v [])
  sort3 : ∀ v, Sorted (s.aextra.getD v [])
  back : ∀ v u p, at2 s.back v u = some p → p.1 = u ∧ first (g.getD u []) v = some p.2
  bx : ∀ v u e, at2 s.bextra v u = some e → Edge g v u ∧ ¬ Edge g u v ∧ e.1 = v ∧ P e.2
  ax : ∀ v u e, at2 s.aextra v u = some e → Edge g u v ∧ ¬ Edge g v u ∧ e.1 = u ∧ P e.2
  pair : ∀ v u, Edge g v u → Edge g u v → (at2 s.back v u).isSome = true → (at2 s.back u v).isSome = true

/-- The edge from `v` to `u` has been dealt with. -/
def Done (g : Rows β) (s : BE β) (v u : Nat) : Prop :=
  (Edge g u v → v < u → (at2 s.back v u).isSome = true) ∧
  (¬ Edge g u v → (at2 s.bextra v u).isSome = true ∧ (at2 s.aextra u v).isSome = true ∧ (at2 s.back u v).isSome = true)

/-- Nothing is removed. -/
structure Ext (s s' : BE β) : Prop where
  back : ∀ v u, (at2 s.back v u).isSome = true → at2 s'.back v u = at2 s.back v u
  bx : ∀ v u, (at2 s.bextra v u).isSome = true → at2 s'.bextra v u = at2 s.bextra v u
  ax : ∀ v u, (at2 s.aextra v u).isSome = true → at2 s'.aextra v u = at2 s.aextra v u

theorem Ext.refl (s : BE β) : Ext s s := ⟨fun _ _ _ => rfl, fun _ _ _ => rfl, fun _ _ _ => rfl⟩

theorem Ext.trans {a b c : BE β} (h : Ext a b) (h' : Ext b c) : Ext a c :=
  ⟨fun v u e => (h'.back v u (by rw [h.back v u e]; exact e)).trans (h.back v u e), fun v u e => (h'.bx v u (by rw [h.bx v u e]; exact e)).trans (h.bx v u e),
    fun v u e => (h'.ax v u (by rw [h.ax v u e]; exact e)).trans (h.ax v u e)⟩

theorem Done.mono {g : Rows β} {s s' : BE β} {v u : Nat} (h : Done g s v u) (e : Ext s s') : Done g s' v u :=
  ⟨fun h1 h2 => by have := h.1 h1 h2; rw [e.back _ _ this]; exact this,
   fun h1 => by
    obtain ⟨a, b, c⟩ := h.2 h1
    exact ⟨by rw [e.bx _ _ a]; exact a, by rw [e.ax _ _ b]; exact b, by rw [e.back _ _ c]; exact c⟩⟩

theorem emplace_ext {l : List (SMap X)} {v : Nat} (hv : v < l.length) (hs : Sorted (l.getD v [])) (u : Nat) (x : X) (v' u' : Nat) (h : (at2 l v' u').isSome = true) :
    at2 (l.set v (emplace (l.getD v []) u x)) v' u' = at2 l v' u' := by
  rw [at2_emplace hv hs]
  split
  · rename_i c
    rw [c.1, c.2] at h ⊢
    obtain ⟨y, hy⟩ := Option.isSome_iff_exists.1 h
    rw [hy]; rfl
  · rfl

theorem inv_empty (P : β → Prop) (g : Rows β) : Inv P g (empty g) := by
  have e : ∀ v, (List.replicate g.length ([] : SMap (Nat × β))).getD v [] = [] := fun v => by
    rw [List.getD_eq_getElem?_getD, List.getElem?_replicate]; split <;> rfl
  have e' : ∀ v, (List.replicate g.length ([] : SMap (Nat × Nat))).getD v [] = [] := fun v => by
    rw [List.getD_eq_getElem?_getD, List.getElem?_replicate]; split <;> rfl
  have a1 : ∀ v u, at2 (empty g).back v u = none := fun v u => by unfold at2; rw [show (empty g).back.getD v [] = [] from e' v]; rfl
  have a2 : ∀ v u, at2 (empty g).bextra v u = none := fun v u => by unfold at2; rw [show (empty g).bextra.getD v [] = [] from e v]; rfl
  have a3 : ∀ v u, at2 (empty g).aextra v u = none := fun v u => by unfold at2; rw [show (empty g).aextra.getD v [] = [] from e v]; rfl
  refine ⟨rfl, by simp [empty], by simp [empty], by simp [empty], ?_, ?_, ?_, ?_, ?_, ?_, ?_⟩
  · intro v; rw [show (empty g).back.getD v [] = [] from e' v]; exact List.Pairwise.nil
  · intro v; rw [show (empty g).bextra.getD v [] = [] from e v]; exact List.Pairwise.nil
  · intro v; rw [show (empty g).aextra.getD v [] = [] from e v]; exact List.Pairwise.nil
  · intro v u p h; rw [a1] at h; cases h
  · intro v u p h; rw [a2] at h; cases h
  · intro v u p h; rw [a3] at h; cases h
  · intro v u _ _ h; rw [a1] at h; cases h

/-- An extra edge is added. -/
theorem addExtra_ok {P : β → Prop} {zero : β} (hz : P zero) {g : Rows β} (hg : InRange g) {s : BE β} (hi : Inv P g s) {v u k : Nat} (he : Edge g v u) (hn : ¬ Edge g u v)
    (hk : at2 s.back u v = none → first (g.getD v []) u = some k) : ∃ s', addExtra zero s v u k = .ok s' ∧ Inv P g s' ∧ Ext s s' ∧ Done g s' v u := by
  have hv : v < g.length := he.src_lt
  have hu : u < g.length := hg _ _ he
  refine ⟨⟨s.g, s.back.set u (emplace (s.back.getD u []) v (v, k)), s.bextra.set v (emplace (s.bextra.getD v []) u (v, zero)),
    s.aextra.set u (emplace (s.aextra.getD u []) v (v, zero))⟩, ?_, ?_, ?_, ?_⟩
  · unfold addExtra
    rw [vget_getD [] (by rw [hi.len2]; exact hv), res_bind_ok, vset_of_lt (by rw [hi.len2]; exact hv), res_bind_ok,
      vget_getD [] (by rw [hi.len3]; exact hu), res_bind_ok, vset_of_lt (by rw [hi.len3]; exact hu), res_bind_ok,
      vget_getD [] (by rw [hi.len1]; exact hu), res_bind_ok, vset_of_lt (by rw [hi.len1]; exact hu), res_bind_ok]
    rfl
  all_goals
    have l1 := hi.len1 ▸ hu
    have l2 := hi.len2 ▸ hv
    have l3 := hi.len3 ▸ hu
  · refine ⟨hi.g_eq, by simpa using hi.len1, by simpa using hi.len2, by simpa using hi.len3, sorted_set l1 hi.sort1 ((hi.sort1 u).emplace _ _),
      sorted_set l2 hi.sort2 ((hi.sort2 v).emplace _ _), sorted_set l3 hi.sort3 ((hi.sort3 u).emplace _ _), ?_, ?_, ?_, ?_⟩
    · intro v' u' p hp
      simp only at hp
      rw [at2_emplace l1 (hi.sort1 u)] at hp
      split at hp
      · rename_i c
        obtain ⟨rfl, rfl⟩ := c
        cases h : at2 s.back v' u' with
        | none =>
          rw [h] at hp
          cases hp
          exact ⟨rfl, hk h⟩
        | some q => rw [h] at hp; cases hp; exact hi.back _ _ _ h
      · exact hi.back _ _ _ hp
    · intro v' u' e hp
      simp only at hp
      rw [at2_emplace l2 (hi.sort2 v)] at hp
      split at hp
      · rename_i c
        obtain ⟨rfl, rfl⟩ := c
        cases h : at2 s.bextra v' u' with
        | none => rw [h] at hp; cases hp; exact ⟨he, hn, rfl, hz⟩
        | some q => rw [h] at hp; cases hp; exact hi.bx _ _ _ h
      · exact hi.bx _ _ _ hp
    · intro v' u' e hp
      simp only at hp
      rw [at2_emplace l3 (hi.sort3 u)] at hp
      split at hp
      · rename_i c
        obtain ⟨rfl, rfl⟩ := c
        cases h : at2 s.aextra v' u' with
        | none => rw [h] at hp; cases hp; exact ⟨he, hn, rfl, hz⟩
        | some q => rw [h] at hp; cases hp; exact hi.ax _ _ _ h
      · exact hi.ax _ _ _ hp
    · intro v' u' h1 h2 h3
      simp only at h3 ⊢
      rw [at2_emplace l1 (hi.sort1 u)] at h3 ⊢
      split at h3
      · rename_i c
        obtain ⟨rfl, rfl⟩ := c
        exact absurd h1 hn
      · split
        · rfl
        · exact hi.pair _ _ h1 h2 h3
  · exact ⟨fun v' u' h => emplace_ext l1 (hi.sort1 u) _ _ _ _ h, fun v' u' h => emplace_ext l2 (hi.sort2 v) _ _ _ _ h, fun v' u' h => emplace_ext l3 (hi.sort3 u) _ _ _ _ h⟩
  · refine ⟨fun h => absurd h hn, fun _ => ⟨?_, ?_, ?_⟩⟩
    · simp only; rw [at2_emplace l2 (hi.sort2 v), if_pos ⟨rfl, rfl⟩]; rfl
    · simp only; rw [at2_emplace l3 (hi.sort3 u), if_pos ⟨rfl, rfl⟩]; rfl
    · simp only; rw [at2_emplace l1 (hi.sort1 u), if_pos ⟨rfl, rfl⟩]; rfl

theorem assign_none {s : BE β} {v u : Nat} {p : Nat × Nat} (hv : v < s.back.length) (h : at2 s.back v u = none) :
    assign s v u p = .ok { s with back := s.back.set v (emplace (s.back.getD v []) u p) } := by
  unfold assign
  rw [vget_getD [] hv, res_bind_ok]
  unfold at2 at h
  rw [h]
  simp only
  rw [vset_of_lt hv]; rfl

theorem set_self {Y : Type} {l : List Y} {i : Nat} {x : Y} (h : l[i]? = some x) : l.set i x = l := by
  apply List.ext_getElem?
  intro j
  rw [List.getElem?_set]
  split
  · rename_i e; subst e
    obtain ⟨hi, h⟩ := List.getElem?_eq_some_iff.1 h
    rw [if_pos hi, ← h, List.getElem?_eq_getElem hi]
  · rfl

/-- The two references for a pair of opposite edges are added. -/
theorem assign2_ok {P : β → Prop} {g : Rows β} (hg : InRange g) {s : BE β} (hi : Inv P g s) {v u k j : Nat} (he : Edge g v u) (hr : Edge g u v)
    (hk : first (g.getD v []) u = some k) (hj : first (g.getD u []) v = some j) (hnone : at2 s.back v u = none) :
    ∃ s', (do let s ← assign s v u (u, j); assign s u v (v, k)) = .ok s' ∧ Inv P g s' ∧ Ext s s' ∧ at2 s'.back v u = some (u, j) := by
  have hv : v < g.length := he.src_lt
  have hu : u < g.length := hg _ _ he
  have l1 : v < s.back.length := by rw [hi.len1]; exact hv
  rw [assign_none l1 hnone, res_bind_ok]
  have hat : ∀ v' u', at2 (s.back.set v (emplace (s.back.getD v []) u (u, j))) v' u' = if v' = v ∧ u' = u then some (u, j) else at2 s.back v' u' := by
    intro v' u'
    rw [at2_emplace l1 (hi.sort1 v), hnone]; rfl
  by_cases hvu : v = u
  · -- a loop: the second assignment goes through the reference
    subst hvu
    rw [hk] at hj
    cases hj
    obtain ⟨e, e1, e2, -⟩ := first_some hk
    refine ⟨{ s with back := s.back.set v (emplace (s.back.getD v []) v (v, k)) }, ?_, ?_, ?_, ?_⟩
    · unfold assign
      have h0 : vget (s.back.set v (emplace (s.back.getD v []) v (v, k))) v = .ok (emplace (s.back.getD v []) v (v, k)) := by
        rw [vget_getD [] (by simpa using l1), getD_set _ _ _ _ _ l1, if_pos rfl]
      have h1 : find (emplace (s.back.getD v []) v (v, k)) v = some (v, k) := by
        rw [find_emplace (hi.sort1 v), if_pos rfl]
        unfold at2 at hnone
        rw [hnone]; rfl
      rw [h0, res_bind_ok, h1]
      have h2 : vget s.g v = .ok (g.getD v []) := by rw [hi.g_eq]; exact vget_getD [] hv
      have h3 : vget (g.getD v []) k = .ok e := vget_eq_ok.2 e1
      simp only [read]
      rw [h2, res_bind_ok, h3, res_bind_ok, res_bind_ok]
      have hkl := (List.getElem?_eq_some_iff.1 e1).1
      rw [vset_of_lt hkl, res_bind_ok, set_self e1, vset_of_lt (by rw [hi.g_eq]; exact hv), res_bind_ok]
      have h4 : s.g.set v (g.getD v []) = s.g := set_self (by
        rw [hi.g_eq, List.getD_eq_getElem?_getD, List.getElem?_eq_getElem hv]; rfl)
      rw [h4]
      rfl
    · refine ⟨hi.g_eq, by simpa using hi.len1, hi.len2, hi.len3, sorted_set l1 hi.sort1 ((hi.sort1 v).emplace _ _), hi.sort2, hi.sort3, ?_, hi.bx, hi.ax, ?_⟩
      · intro v' u' p hp
        simp only at hp
        rw [hat] at hp
        split at hp
        · rename_i c; obtain ⟨rfl, rfl⟩ := c; cases hp; exact ⟨rfl, hk⟩
        · exact hi.back _ _ _ hp
      · intro v' u' h1 h2 h3
        simp only at h3 ⊢
        rw [hat] at h3 ⊢
        split
        · rfl
        · rename_i c
          split at h3
          · rename_i c'; exact absurd ⟨c'.2, c'.1⟩ c
          · exact hi.pair _ _ h1 h2 h3
    · exact ⟨fun v' u' h => by
        simp only
        rw [hat]
        split
        · rename_i c; rw [c.1, c.2, hnone] at h; cases h
        · rfl, fun _ _ _ => rfl, fun _ _ _ => rfl⟩
    · simp only; rw [hat, if_pos ⟨rfl, rfl⟩]
  · have l1' : u < (s.back.set v (emplace (s.back.getD v []) u (u, j))).length := by rw [List.length_set, hi.len1]; exact hu
    have hnone' : at2 (s.back.set v (emplace (s.back.getD v []) u (u, j))) u v = none := by
      rw [hat, if_neg (fun h => hvu h.1.symm)]
      cases h : at2 s.back u v with
      | none => rfl
      | some p =>
        have := hi.pair u v hr he (by rw [h]; rfl)
        rw [hnone] at this; cases this
    rw [assign_none l1' hnone']
    simp only
    have hs1 : ∀ v', Sorted ((s.back.set v (emplace (s.back.getD v []) u (u, j))).getD v' []) := sorted_set l1 hi.sort1 ((hi.sort1 v).emplace _ _)
    have hat2 : ∀ v' u', at2 ((s.back.set v (emplace (s.back.getD v []) u (u, j))).set u
        (emplace ((s.back.set v (emplace (s.back.getD v []) u (u, j))).getD u []) v (v, k))) v' u' =
        if v' = u ∧ u' = v then some (v, k) else if v' = v ∧ u' = u then some (u, j) else at2 s.back v' u' := by
      intro v' u'
      rw [at2_emplace l1' (hs1 u), hnone', hat]; rfl
    refine ⟨_, rfl, ?_, ?_, ?_⟩
    · refine ⟨hi.g_eq, by simpa using hi.len1, hi.len2, hi.len3, sorted_set l1' hs1 ((hs1 u).emplace _ _), hi.sort2, hi.sort3, ?_, hi.bx, hi.ax, ?_⟩
      · intro v' u' p hp
        simp only at hp
        rw [hat2] at hp
        split at hp
        · rename_i c; obtain ⟨rfl, rfl⟩ := c; cases hp; exact ⟨rfl, hk⟩
        · split at hp
          · rename_i c; obtain ⟨rfl, rfl⟩ := c; cases hp; exact ⟨rfl, hj⟩
          · exact hi.back _ _ _ hp
      · intro v' u' h1 h2 h3
        simp only at h3 ⊢
        rw [hat2] at h3 ⊢
        split
        · rfl
        · rename_i c
          split
          · rfl
          · rename_i c2
            rw [if_neg (fun h => c2 ⟨h.2, h.1⟩), if_neg (fun h => c ⟨h.2, h.1⟩)] at h3
            exact hi.pair _ _ h1 h2 h3
    · refine ⟨fun v' u' h => ?_, fun _ _ _ => rfl, fun _ _ _ => rfl⟩
      simp only
      rw [hat2]
      split
      · rename_i c
        rw [c.1, c.2] at h
        rw [hat, if_neg (fun h => hvu h.1.symm)] at hnone'
        rw [hnone'] at h; cases h
      · split
        · rename_i c; rw [c.1, c.2, hnone] at h; cases h
        · rfl
    · rw [hat2, if_neg (fun h => hvu h.1), if_pos ⟨rfl, rfl⟩]

/-- The `k`-th edge of row `v` is dealt with, after all earlier ones of the row. -/
theorem buildEdge_ok {P : β → Prop} {zero : β} (hz : P zero) {g : Rows β} (hg : InRange g) {s : BE β} (hi : Inv P g s) {v k : Nat} {e : Nat × β} (hv : v < g.length)
    (hk : (g.getD v [])[k]? = some e) (hbefore : ∀ k' e', k' < k → (g.getD v [])[k']? = some e' → Done g s v e'.1) :
    ∃ s', buildEdge zero v s k = .ok s' ∧ Inv P g s' ∧ Ext s s' ∧ Done g s' v e.1 := by
  have hmem : e ∈ g.getD v [] := List.mem_of_getElem? hk
  have he : Edge g v e.1 := List.mem_map_of_mem hmem
  have hu : e.1 < g.length := hg _ _ he
  have hfirst : (∀ k' e', k' < k → (g.getD v [])[k']? = some e' → e'.1 ≠ e.1) → first (g.getD v []) e.1 = some k := by
    intro h
    unfold first
    rw [List.findIdx?_eq_some_iff_getElem]
    obtain ⟨hkl, hke⟩ := List.getElem?_eq_some_iff.1 hk
    refine ⟨hkl, decide_eq_true (by rw [hke]), fun i hi => ?_⟩
    have := h i _ hi (List.getElem?_eq_getElem (Nat.lt_trans hi hkl))
    simpa using this
  unfold buildEdge
  rw [hi.g_eq, vget_getD [] hv, res_bind_ok, vget_eq_ok.2 hk, res_bind_ok, vget_getD [] hu, res_bind_ok, vget_getD [] (by rw [hi.len1]; exact hv), res_bind_ok]
  by_cases c : (at2 s.back v e.1).isSome = true
  · have c' := c
    unfold at2 at c'
    rw [if_pos c']
    refine ⟨s, rfl, hi, Ext.refl s, fun _ _ => c, fun hn => ?_⟩
    obtain ⟨p, hp⟩ := Option.isSome_iff_exists.1 c
    have := (hi.back _ _ _ hp).2
    exact absurd ((edge_iff_first g e.1 v).2 ⟨_, this⟩) hn
  · have c' := c
    unfold at2 at c'
    rw [if_neg c']
    have hnone : at2 s.back v e.1 = none := by
      cases h : at2 s.back v e.1 with
      | none => rfl
      | some _ => rw [h] at c; exact absurd rfl c
    cases hf : first (g.getD e.1 []) v with
    | some j =>
      have hr : Edge g e.1 v := (edge_iff_first g e.1 v).2 ⟨j, hf⟩
      dsimp only
      by_cases hlt : v < e.1
      · rw [if_pos hlt]
        have hk' : first (g.getD v []) e.1 = some k := hfirst fun k' e' hk' he' heq => by
          have := (hbefore k' e' hk' he').1 (by rw [heq]; exact hr) (by rw [heq]; exact hlt)
          rw [heq] at this
          exact c this
        obtain ⟨s', h1, h2, h3, h4⟩ := assign2_ok hg hi he hr hk' hf hnone
        exact ⟨s', h1, h2, h3, fun _ _ => by rw [h4]; rfl, fun hn => absurd hr hn⟩
      · rw [if_neg hlt]
        exact ⟨s, rfl, hi, Ext.refl s, fun _ h => absurd h hlt, fun hn => absurd hr hn⟩
    | none =>
      have hn : ¬ Edge g e.1 v := (not_edge_iff_first g e.1 v).2 hf
      dsimp only
      refine addExtra_ok hz hg hi he hn fun hnb => hfirst fun k' e' hk' he' heq => ?_
      have := ((hbefore k' e' hk' he').2 (by rw [heq]; exact hn)).2.2
      rw [heq, hnb] at this
      cases this

/-- Everything has been dealt with. -/
def Complete (g : Rows β) (s : BE β) : Prop := ∀ v u, Edge g v u → Done g s v u

theorem build_ok {P : β → Prop} {zero : β} (hz : P zero) {g : Rows β} (hg : InRange g) : ∃ s, build zero g false = .ok s ∧ Inv P g s ∧ Complete g s := by
  unfold build
  rw [if_neg (by simp)]
  obtain ⟨s, h1, h2, h3⟩ := foldlM_range_inv (n := g.length) (f := buildRow zero) (s := empty g) (fun i s => Inv P g s ∧ ∀ v u, v < i → Edge g v u → Done g s v u)
    ⟨inv_empty P g, by omega⟩ (by
      rintro v hv s ⟨hi, hd⟩
      unfold buildRow
      rw [hi.g_eq, vget_getD [] hv, res_bind_ok]
      obtain ⟨s', h1, h2, h3, h4⟩ := foldlM_range_inv (n := (g.getD v []).length) (f := buildEdge zero v) (s := s)
        (fun k s => Inv P g s ∧ (∀ v' u, v' < v → Edge g v' u → Done g s v' u) ∧ ∀ (k' : Nat) e', k' < k → (g.getD v [])[k']? = some e' → Done g s v e'.1)
        ⟨hi, hd, by omega⟩ (by
          rintro k hk s ⟨hi, hd, hb⟩
          obtain ⟨s', h1, h2, h3, h4⟩ := buildEdge_ok hz hg hi hv (List.getElem?_eq_getElem hk) (fun k' e' h h' => hb k' e' h h')
          refine ⟨s', h1, h2, fun v' u h he => (hd v' u h he).mono h3, ?_⟩
          intro k' e' hk' he'
          rcases Nat.lt_or_ge k' k with c | c
          · exact (hb k' e' c he').mono h3
          · have : k' = k := by omega
            subst this
            rw [List.getElem?_eq_getElem hk] at he'
            cases he'
            exact h4)
      refine ⟨s', h1, h2, ?_⟩
      intro v' u hv' he
      rcases Nat.lt_or_ge v' v with c | c
      · exact h3 v' u c he
      · have : v' = v := by omega
        subst this
        obtain ⟨e, hem, rfl⟩ := List.mem_map.1 he
        obtain ⟨k, hk⟩ := List.getElem?_of_mem hem
        exact h4 k e (List.getElem?_eq_some_iff.1 hk).1 hk)
  exact ⟨s, h1, h2, fun v u he => h3 v u he.src_lt he⟩

/-- Where the counterpart of the edge from `v` to `u` is. -/
def counterpart (g : Rows β) (v u : Nat) : Loc :=
  match first (g.getD u []) v with
  | some j => .row u j
  | none => .bx v u

theorem lookup_eq {P : β → Prop} {g : Rows β} {s : BE β} (hi : Inv P g s) {v u : Nat} (hv : v < g.length) :
    lookup s v u = .ok (if (at2 s.back v u).isSome = true ∨ (at2 s.bextra v u).isSome = true then some (counterpart g v u) else none) := by
  unfold lookup counterpart
  rw [vget_getD [] (by rw [hi.len1]; exact hv), res_bind_ok]
  cases h : at2 s.back v u with
  | some p =>
    have h' := h
    unfold at2 at h'
    rw [h']
    obtain ⟨h1, h2⟩ := hi.back _ _ _ h
    rw [if_pos (Or.inl (show (some p).isSome = true from rfl)), h2]
    obtain ⟨p1, p2⟩ := p
    cases h1
    rfl
  | none =>
    have h' := h
    unfold at2 at h'
    rw [h']
    dsimp only
    rw [vget_getD [] (by rw [hi.len2]; exact hv), res_bind_ok]
    cases hb : at2 s.bextra v u with
    | some e =>
      have hb' := hb
      unfold at2 at hb'
      rw [hb', if_pos (Or.inr (show (some e).isSome = true from rfl)), (not_edge_iff_first g u v).1 (hi.bx _ _ _ hb).2.1]
      rfl
    | none =>
      have hb' := hb
      unfold at2 at hb'
      rw [hb', if_neg (by simp)]
      rfl

/-- `get_back_edge` for an edge of the graph. -/
theorem getBack_ok {P : β → Prop} {zero : β} (hz : P zero) {g : Rows β} (hg : InRange g) {s : BE β} (hi : Inv P g s) {v u : Nat} (he : Edge g v u) :
    ∃ s', getBack zero s v u = .ok (s', counterpart g v u) ∧ Inv P g s' ∧ Ext s s' ∧ ((at2 s'.back v u).isSome = true ∨ (at2 s'.bextra v u).isSome = true) := by
  have hv : v < g.length := he.src_lt
  have hu : u < g.length := hg _ _ he
  unfold getBack
  rw [lookup_eq hi hv, res_bind_ok]
  by_cases c : (at2 s.back v u).isSome = true ∨ (at2 s.bextra v u).isSome = true
  · rw [if_pos c]
    exact ⟨s, rfl, hi, Ext.refl s, c⟩
  · rw [if_neg c]
    dsimp only
    rw [hi.g_eq, vget_getD [] hv, res_bind_ok]
    obtain ⟨k, hk⟩ := (edge_iff_first g v u).1 he
    rw [hk]
    dsimp only
    rw [vget_getD [] hu, res_bind_ok]
    have hnone : at2 s.back v u = none := by
      cases h : at2 s.back v u with
      | none => rfl
      | some _ => exact absurd (Or.inl (by rw [h]; rfl)) c
    cases hf : first (g.getD u []) v with
    | some j =>
      have hr : Edge g u v := (edge_iff_first g u v).2 ⟨j, hf⟩
      have hnone' : at2 s.back u v = none := by
        cases h : at2 s.back u v with
        | none => rfl
        | some p =>
          have := hi.pair u v hr he (by rw [h]; rfl)
          rw [hnone] at this; cases this
      obtain ⟨s', h1, h2, h3, h4⟩ := assign2_ok hg hi hr he hf hk hnone'
      dsimp only
      cases ha : assign s u v (v, k) with
      | error f => rw [ha] at h1; cases h1
      | ok s1 =>
      rw [ha, res_bind_ok] at h1
      rw [res_bind_ok, h1, res_bind_ok, lookup_eq h2 hv]
      have h5 := h2.pair u v hr he (by rw [h4]; rfl)
      rw [if_pos (Or.inl h5)]
      exact ⟨s', rfl, h2, h3, Or.inl h5⟩
    | none =>
      have hn : ¬ Edge g u v := (not_edge_iff_first g u v).2 hf
      obtain ⟨s', h1, h2, h3, h4⟩ := addExtra_ok hz hg hi he hn fun _ => hk
      dsimp only
      rw [h1, res_bind_ok, lookup_eq h2 hv]
      have h5 := (h4.2 hn).1
      rw [if_pos (Or.inr h5)]
      exact ⟨s', rfl, h2, h3, Or.inr h5⟩

theorem read_counterpart {P : β → Prop} {g : Rows β} (hg : InRange g) {s : BE β} (hi : Inv P g s) {v u : Nat} (he : Edge g v u)
    (h : (at2 s.back v u).isSome = true ∨ (at2 s.bextra v u).isSome = true) :
    ∃ e, read s (counterpart g v u) = .ok e ∧ e.1 = v ∧ (Edge g u v → (g.getD u []).find? (fun e => decide (e.1 = v)) = some e) ∧ (¬ Edge g u v → P e.2) := by
  have hv : v < g.length := he.src_lt
  have hu : u < g.length := hg _ _ he
  unfold counterpart
  cases hf : first (g.getD u []) v with
  | some j =>
    have hr : Edge g u v := (edge_iff_first g u v).2 ⟨j, hf⟩
    obtain ⟨e, e1, e2, e3⟩ := first_some hf
    refine ⟨e, ?_, e2, fun _ => e3, fun hn => absurd hr hn⟩
    show (do let r ← vget s.g u; vget r j) = _
    rw [hi.g_eq, vget_getD [] hu, res_bind_ok]
    exact vget_eq_ok.2 e1
  | none =>
    have hn : ¬ Edge g u v := (not_edge_iff_first g u v).2 hf
    have hb : (at2 s.bextra v u).isSome = true := by
      rcases h with h | h
      · obtain ⟨p, hp⟩ := Option.isSome_iff_exists.1 h
        have := (hi.back _ _ _ hp).2
        rw [hf] at this; cases this
      · exact h
    obtain ⟨e, he'⟩ := Option.isSome_iff_exists.1 hb
    obtain ⟨-, -, h3, h4⟩ := hi.bx _ _ _ he'
    refine ⟨e, ?_, h3, fun hr => absurd hr hn, fun _ => h4⟩
    unfold at2 at he'
    simp only [read]
    rw [vget_getD [] (by rw [hi.len2]; exact hv), res_bind_ok, he']; rfl

end NW.BackEdge
