import Verif.Model.DfsEdges
import Verif.Spec.DepthFirst
import Verif.Lemmas.ListRes
import Mathlib.Data.List.Perm.Subperm

/-!
# C132: `dfs_edge_range` of dfs_range.hpp
-/

namespace NW.DfsEdges
open Spec DfsRange
variable {α : Type}

/-! ## What the specification says -/

theorem fresh_eq_none {g : Rows α} {reached : List Nat} {v : Nat} : fresh g reached v = none ↔ ∀ w, Edge g v w → w ∈ reached := by
  unfold fresh Edge nbrs
  rw [List.find?_eq_none]
  constructor
  · intro h w hw
    obtain ⟨e, he, rfl⟩ := List.mem_map.1 hw
    have := h e he
    simpa using this
  · intro h e he
    have := h e.1 (List.mem_map_of_mem he)
    simpa using this

theorem fresh_eq_some {g : Rows α} {reached : List Nat} {v : Nat} {e : Nat × α} (h : fresh g reached v = some e) : e ∈ g.getD v [] ∧ e.1 ∉ reached := by
  unfold fresh at h
  exact ⟨List.mem_of_find?_eq_some h, by simpa using List.find?_some h⟩

/-- A depth-first search reaches every vertex once, along edges, and stops when nothing more can be reached. -/
theorem depthFirst_reaches {g : Rows α} {reached : List Nat} {es : List (Nat × Nat × α)} (h : DepthFirst g reached es) (hn : reached.Nodup) :
    ((es.map fun e => e.2.1).reverse ++ reached).Nodup ∧ (∀ e ∈ es, e.2 ∈ g.getD e.1 []) ∧
    (∀ e ∈ es, e.1 ∈ reached ∨ ∃ e' ∈ es, e'.2.1 = e.1) ∧
    ∀ v w, v ∈ (es.map fun e => e.2.1).reverse ++ reached → Edge g v w → w ∈ (es.map fun e => e.2.1).reverse ++ reached := by
  induction h with
  | done h =>
    refine ⟨by simpa using hn, by simp, by simp, ?_⟩
    intro v w hv he
    simp only [List.map_nil, List.reverse_nil, List.nil_append] at hv ⊢
    exact fresh_eq_none.1 (h v hv) w he
  | @step later v earlier e es hl hv h ih =>
    obtain ⟨h1, h2⟩ := fresh_eq_some hv
    obtain ⟨a, b, c, d⟩ := ih (List.nodup_cons.2 ⟨h2, hn⟩)
    have eq : (((v, e) :: es).map fun e => e.2.1).reverse ++ (later ++ v :: earlier) = (es.map fun e => e.2.1).reverse ++ e.1 :: (later ++ v :: earlier) := by simp
    rw [eq]
    refine ⟨a, ?_, ?_, d⟩
    · intro x hx
      rcases List.mem_cons.1 hx with rfl | hx
      · exact h1
      · exact b x hx
    · intro x hx
      rcases List.mem_cons.1 hx with rfl | hx
      · left; simp
      · rcases c x hx with hc | ⟨y, hy, hc⟩
        · rcases List.mem_cons.1 hc with hc | hc
          · right; exact ⟨(v, e), by simp, hc.symm⟩
          · exact .inl hc
        · exact .inr ⟨y, by simp [hy], hc⟩

/-- From one vertex: exactly what can be reached. -/
theorem depthFirst_reachable {g : Rows α} {seed : Nat} {es : List (Nat × Nat × α)} (h : DepthFirst g [seed] es) :
    (seed :: es.map fun e => e.2.1).Nodup ∧ (∀ x, x ∈ seed :: (es.map fun e => e.2.1) ↔ Reachable g seed x) ∧ ∀ e ∈ es, e.2 ∈ g.getD e.1 [] := by
  have hmem : ∀ x, x ∈ (es.map fun e => e.2.1).reverse ++ [seed] ↔ x ∈ seed :: (es.map fun e => e.2.1) := by
    intro x; simp only [List.mem_append, List.mem_reverse, List.mem_cons, List.not_mem_nil, or_false]; exact Or.comm
  obtain ⟨a, b, _, d⟩ := depthFirst_reaches h (by simp)
  refine ⟨?_, ?_, b⟩
  · have : (seed :: es.map fun e => e.2.1) = ((es.map fun e => e.2.1).reverse ++ [seed]).reverse := by simp
    rw [this]; exact (List.reverse_perm _).nodup_iff.2 a
  · intro x
    constructor
    · have key : ∀ {reached : List Nat} {es : List (Nat × Nat × α)}, DepthFirst g reached es → (∀ v ∈ reached, Reachable g seed v) → ∀ e ∈ es, Reachable g seed e.2.1 := by
        intro reached es h
        induction h with
        | done _ => intro _ e he; simp at he
        | @step later v earlier e es hl hv h ih =>
          intro hr
          obtain ⟨h1, _⟩ := fresh_eq_some hv
          have he : Reachable g seed e.1 := by
            obtain ⟨k, hk⟩ := hr v (by simp)
            exact ⟨k + 1, .snoc hk (List.mem_map_of_mem h1)⟩
          intro x hx
          rcases List.mem_cons.1 hx with rfl | hx
          · exact he
          · exact ih (by
              intro u hu
              rcases List.mem_cons.1 hu with rfl | hu
              · exact he
              · exact hr u hu) x hx
      intro hx
      rcases List.mem_cons.1 hx with rfl | hx
      · exact ⟨0, .nil⟩
      · obtain ⟨e, he, rfl⟩ := List.mem_map.1 hx
        exact key h (by intro v hv; rw [List.mem_singleton.1 hv]; exact ⟨0, .nil⟩) e he
    · rintro ⟨k, hk⟩
      rw [← hmem]
      induction hk with
      | nil => simp
      | snoc _ he ih => exact d _ _ ih he

/-! ## The invariant -/

/-- Between two steps: the vertices `reached`, the latest first; `qs` with `v` in front is the path from the seed to `v`; below it on the stack are `bot`. -/
structure Inv (g : Rows α) (seed : Nat) (bot : List Nat) (reached qs : List Nat) (colors : List Color) (v : Nat) : Prop where
  len : colors.length = g.length
  nodup : reached.Nodup
  inside : ∀ x ∈ reached, x < g.length
  white : ∀ x, x < g.length → x ∉ reached → colors[x]? = some .white
  colored : ∀ x ∈ reached, x ≠ v → colors[x]? ≠ some .white
  path : (v :: qs).Sublist reached
  left : ∀ x ∈ reached, x ∉ v :: qs → fresh g reached x = none
  grey : ∀ x ∈ qs, colors[x]? = some .grey
  last : (v :: qs).getLast? = some seed

theorem vget_of_getElem? {β : Type} {l : List β} {i : Nat} {x : β} (h : l[i]? = some x) : vget l i = .ok x := by
  obtain ⟨hi, rfl⟩ := List.getElem?_eq_some_iff.1 h
  exact vget_of_lt hi

theorem skip_eq (colors : List Color) (reached : List Nat) (row : List (Nat × α)) (hw : ∀ e ∈ row, e.1 ∉ reached → colors[e.1]? = some .white)
    (hc : ∀ e ∈ row, e.1 ∈ reached → ∃ c, colors[e.1]? = some c ∧ c ≠ .white) :
    skip colors row = .ok (row.dropWhile fun e => decide (e.1 ∈ reached)) := by
  induction row with
  | nil => rfl
  | cons e row ih =>
    rw [skip]
    have ih' := ih (fun x hx => hw x (by simp [hx])) (fun x hx => hc x (by simp [hx]))
    by_cases he : e.1 ∈ reached
    · obtain ⟨c, h1, h2⟩ := hc e (by simp) he
      rw [vget_of_getElem? h1, res_bind_ok, if_pos h2, ih', List.dropWhile_cons_of_pos (by simpa using he)]
    · rw [vget_of_getElem? (hw e (by simp) he), res_bind_ok, if_neg (by simp), List.dropWhile_cons_of_neg (by simpa using he)]

theorem dropWhile_fresh (g : Rows α) (reached : List Nat) (v : Nat) :
    ((g.getD v []).dropWhile fun e => decide (e.1 ∈ reached)).head? = fresh g reached v := by
  unfold fresh
  generalize g.getD v [] = row
  induction row with
  | nil => rfl
  | cons e row ih =>
    by_cases he : e.1 ∈ reached
    · rw [List.dropWhile_cons_of_pos (by simpa using he), ih, List.find?_cons_of_neg (by simpa using he)]
    · rw [List.dropWhile_cons_of_neg (by simpa using he), List.find?_cons_of_pos (by simpa using he)]; rfl

theorem getD_of_lt (g : Rows α) {v : Nat} (hv : v < g.length) : vget g v = .ok (g.getD v []) := by
  rw [vget_of_lt hv]; simp [List.getD_eq_getElem?_getD, List.getElem?_eq_getElem hv]

/-- Where the next edge starts. -/
theorem split_path {reached qs : List Nat} {v : Nat} (hn : reached.Nodup) (h : (v :: qs).Sublist reached) :
    ∃ later earlier, reached = later ++ v :: earlier ∧ qs.Sublist earlier ∧ ∀ u ∈ later, u ∉ v :: qs := by
  induction reached with
  | nil => cases h
  | cons r reached ih =>
    rw [List.nodup_cons] at hn
    cases h with
    | cons _ h =>
      obtain ⟨l, e, h1, h2, h3⟩ := ih hn.2 h
      refine ⟨r :: l, e, by rw [h1]; rfl, h2, ?_⟩
      intro u hu
      rcases List.mem_cons.1 hu with rfl | hu
      · intro hq; exact hn.1 (h.subset hq)
      · exact h3 u hu
    | cons_cons _ h => exact ⟨[], reached, rfl, h, by simp⟩

/-- The outcome of leaving `v`, which has no neighbour left: the next vertex on the path that has one, or the bottom of the stack. -/
theorem unwind_ok {g : Rows α} (hg : InRange g) {seed : Nat} {bot : List Nat} (hbot : bot ≠ []) {reached : List Nat} (qs : List Nat) {colors : List Color} {v : Nat}
    (hI : Inv g seed bot reached qs colors v) (hv : fresh g reached v = none) :
    (∃ qs' colors' v' rest e, unwind g (qs ++ bot) colors v = .ok ⟨qs' ++ bot, colors', v', e :: rest⟩ ∧ Inv g seed bot reached qs' colors' v' ∧ fresh g reached v' = some e) ∨
    ((∀ x ∈ reached, fresh g reached x = none) ∧ ∃ colors', colors'.length = g.length ∧ unwind g (qs ++ bot) colors v = unwind g bot colors' seed) := by
  induction qs generalizing colors v with
  | nil =>
    right
    have hs : v = seed := by have := hI.last; simpa using this
    subst hs
    refine ⟨?_, colors, hI.len, rfl⟩
    intro x hx
    by_cases h : x = v
    · rw [h]; exact hv
    · exact hI.left x hx (by simpa using h)
  | cons t qs ih =>
    have hmem : ∀ x ∈ v :: t :: qs, x ∈ reached := fun x hx => hI.path.subset hx
    have hpn : (v :: t :: qs).Nodup := hI.path.nodup hI.nodup
    have htv : t ≠ v := by intro h; subst h; simp at hpn
    have hvl : v < colors.length := by rw [hI.len]; exact hI.inside v (hmem v (by simp))
    have htl : t < g.length := hI.inside t (hmem t (by simp))
    have hset : ∀ x, x ≠ v → (colors.set v .black)[x]? = colors[x]? := by intro x hx; rw [List.getElem?_set_ne (Ne.symm hx)]
    have hself : (colors.set v .black)[v]? = some .black := by rw [List.getElem?_set_self hvl]
    have hI' : Inv g seed bot reached qs (colors.set v .black) t := by
      refine ⟨by rw [List.length_set]; exact hI.len, hI.nodup, hI.inside, ?_, ?_, (List.Sublist.trans (List.sublist_cons_self _ _) hI.path), ?_, ?_, ?_⟩
      · intro x hx hr
        have : x ≠ v := by rintro rfl; exact hr (hmem x (by simp))
        rw [hset x this]; exact hI.white x hx hr
      · intro x hx _
        by_cases h : x = v
        · subst h; rw [hself]; simp
        · rw [hset x h]; exact hI.colored x hx h
      · intro x hx hq
        by_cases h : x = v
        · subst h; exact hv
        · exact hI.left x hx (by intro h'; rcases List.mem_cons.1 h' with h' | h'; exact h h'; exact hq h')
      · intro x hx
        have : x ≠ v := by rintro rfl; simp [hx] at hpn
        rw [hset x this]; exact hI.grey x (by simp [hx])
      · have := hI.last; rwa [List.getLast?_cons_cons] at this
    have ht : (colors.set v .black)[t]? = some .grey := by rw [hset t htv]; exact hI.grey t (by simp)
    have hskip : skip (colors.set v .black) (g.getD t []) = .ok ((g.getD t []).dropWhile fun e => decide (e.1 ∈ reached)) := by
      apply skip_eq
      · intro e he hr
        exact hI'.white e.1 (hg t e.1 (List.mem_map_of_mem he)) hr
      · intro e he hr
        have hlt := hI.inside _ hr
        have hlen : e.1 < (colors.set v .black).length := by rw [hI'.len]; exact hlt
        refine ⟨_, List.getElem?_eq_getElem hlen, ?_⟩
        intro hw
        by_cases h : e.1 = t
        · have : (colors.set v .black)[e.1]? = some .grey := by rw [h]; exact ht
          rw [List.getElem?_eq_getElem hlen, hw] at this; cases this
        · exact hI'.colored e.1 hr h (by rw [List.getElem?_eq_getElem hlen, hw])
    have hun : unwind g (t :: qs ++ bot) colors v =
        if ((g.getD t []).dropWhile fun e => decide (e.1 ∈ reached)) = [] then unwind g (qs ++ bot) (colors.set v .black) t
        else .ok ⟨qs ++ bot, colors.set v .black, t, (g.getD t []).dropWhile fun e => decide (e.1 ∈ reached)⟩ := by
      rw [List.cons_append, unwind, vset_of_lt hvl, res_bind_ok, if_neg (by simp [hbot]), vget_of_getElem? ht, res_bind_ok]
      have hc : check (decide ((Color.grey : Color) = .grey)) = .ok () := rfl
      rw [hc, res_bind_ok, getD_of_lt g htl, res_bind_ok, hskip, res_bind_ok]
      rfl
    rw [hun]
    have hd := dropWhile_fresh g reached t
    cases hf : fresh g reached t with
    | none =>
      rw [hf] at hd
      rw [if_pos (List.head?_eq_none_iff.1 hd)]
      exact ih hI' hf
    | some e =>
      rw [hf] at hd
      obtain ⟨rest, hr⟩ : ∃ rest, ((g.getD t []).dropWhile fun e => decide (e.1 ∈ reached)) = e :: rest := by
        cases hl : (g.getD t []).dropWhile fun e => decide (e.1 ∈ reached) with
        | nil => rw [hl] at hd; cases hd
        | cons a r => rw [hl] at hd; injection hd with hd; exact ⟨r, by rw [hd]⟩
      rw [hr, if_neg (by simp)]
      exact .inl ⟨qs, _, t, rest, e, rfl, hI', hf⟩

/-- One `++`. -/
theorem next_ok {g : Rows α} (hg : InRange g) {seed : Nat} (hloop : ∀ u, u ≠ seed → ¬ Edge g u u) {bot : List Nat} (hbot : bot ≠ []) {reached qs : List Nat} {colors : List Color} {v : Nat}
    (hI : Inv g seed bot reached qs colors v) {e : Nat × α} (rest : List (Nat × α)) (hv : fresh g reached v = some e) :
    (∃ qs' colors' v' rest' e', next g ⟨qs ++ bot, colors, v, e :: rest⟩ = .ok ⟨qs' ++ bot, colors', v', e' :: rest'⟩ ∧ Inv g seed bot (e.1 :: reached) qs' colors' v' ∧
      fresh g (e.1 :: reached) v' = some e') ∨
    ((∀ x ∈ e.1 :: reached, fresh g (e.1 :: reached) x = none) ∧ ∃ colors', colors'.length = g.length ∧ next g ⟨qs ++ bot, colors, v, e :: rest⟩ = unwind g bot colors' seed) := by
  obtain ⟨he, hnr⟩ := fresh_eq_some hv
  have hel : e.1 < g.length := hg v e.1 (List.mem_map_of_mem he)
  have hmem : ∀ x ∈ v :: qs, x ∈ reached := fun x hx => hI.path.subset hx
  have hvl : v < colors.length := by rw [hI.len]; exact hI.inside v (hmem v (by simp))
  have hset : ∀ x, x ≠ v → (colors.set v .grey)[x]? = colors[x]? := by intro x hx; rw [List.getElem?_set_ne (Ne.symm hx)]
  have hself : (colors.set v .grey)[v]? = some .grey := by rw [List.getElem?_set_self hvl]
  have hes : e.1 ≠ seed := by
    rintro h; exact hnr (by rw [h]; exact hmem seed (List.mem_of_getLast? hI.last))
  have hev : e.1 ≠ v := by intro h; exact hnr (by rw [h]; exact hmem v (by simp))
  have hI' : Inv g seed bot (e.1 :: reached) (v :: qs) (colors.set v .grey) e.1 := by
    refine ⟨by rw [List.length_set]; exact hI.len, List.nodup_cons.2 ⟨hnr, hI.nodup⟩, ?_, ?_, ?_, hI.path.cons_cons _, ?_, ?_, ?_⟩
    · intro x hx
      rcases List.mem_cons.1 hx with rfl | hx
      · exact hel
      · exact hI.inside x hx
    · intro x hx hr
      have hxr : x ∉ reached := fun h => hr (List.mem_cons_of_mem _ h)
      have : x ≠ v := by rintro rfl; exact hxr (hmem x (by simp))
      rw [hset x this]; exact hI.white x hx hxr
    · intro x hx hxe
      rcases List.mem_cons.1 hx with h | hx
      · exact absurd h hxe
      · by_cases h : x = v
        · subst h; rw [hself]; simp
        · rw [hset x h]; exact hI.colored x hx h
    · intro x hx hq
      rcases List.mem_cons.1 hx with rfl | hx
      · exact absurd (by simp) hq
      · have := hI.left x hx (fun h => hq (List.mem_cons_of_mem _ h))
        rw [fresh_eq_none] at this ⊢
        intro w hw; exact List.mem_cons_of_mem _ (this w hw)
    · intro x hx
      by_cases h : x = v
      · subst h; exact hself
      · rw [hset x h]
        exact hI.grey x (by rcases List.mem_cons.1 hx with hx | hx; exact absurd hx h; exact hx)
    · rw [List.getLast?_cons_cons]; exact hI.last
  have hskip : skip (colors.set v .grey) (g.getD e.1 []) = .ok ((g.getD e.1 []).dropWhile fun x => decide (x.1 ∈ e.1 :: reached)) := by
    apply skip_eq
    · intro x hx hr
      exact hI'.white x.1 (hg e.1 x.1 (List.mem_map_of_mem hx)) hr
    · intro x hx hr
      have hlt := hI'.inside _ hr
      have hlen : x.1 < (colors.set v .grey).length := by rw [hI'.len]; exact hlt
      refine ⟨_, List.getElem?_eq_getElem hlen, ?_⟩
      intro hw
      have hne : x.1 ≠ e.1 := by
        intro h
        exact hloop e.1 hes (by have := List.mem_map_of_mem (f := Prod.fst) hx; rw [h] at this; exact this)
      exact hI'.colored x.1 hr hne (by rw [List.getElem?_eq_getElem hlen, hw])
  have hnx : next g ⟨qs ++ bot, colors, v, e :: rest⟩ =
      if ((g.getD e.1 []).dropWhile fun x => decide (x.1 ∈ e.1 :: reached)) = [] then unwind g ((v :: qs) ++ bot) (colors.set v .grey) e.1
      else .ok ⟨(v :: qs) ++ bot, colors.set v .grey, e.1, (g.getD e.1 []).dropWhile fun x => decide (x.1 ∈ e.1 :: reached)⟩ := by
    unfold next
    dsimp only
    rw [vset_of_lt hvl, res_bind_ok, getD_of_lt g hel, res_bind_ok, hskip, res_bind_ok]
    rfl
  rw [hnx]
  have hd := dropWhile_fresh g (e.1 :: reached) e.1
  cases hf : fresh g (e.1 :: reached) e.1 with
  | none =>
    rw [hf] at hd
    rw [if_pos (List.head?_eq_none_iff.1 hd)]
    exact unwind_ok hg hbot (v :: qs) hI' hf
  | some e' =>
    rw [hf] at hd
    obtain ⟨rest', hr⟩ : ∃ rest', ((g.getD e.1 []).dropWhile fun x => decide (x.1 ∈ e.1 :: reached)) = e' :: rest' := by
      cases hl : (g.getD e.1 []).dropWhile fun x => decide (x.1 ∈ e.1 :: reached) with
      | nil => rw [hl] at hd; cases hd
      | cons a r => rw [hl] at hd; injection hd with hd; exact ⟨r, by rw [hd]⟩
    rw [hr, if_neg (by simp)]
    exact .inl ⟨v :: qs, _, e.1, rest', e', rfl, hI', hf⟩

/-- What a loop does, step by step, until the step whose result satisfies `Fin`. -/
inductive Chain (g : Rows α) (Fin : Res (St α) → Prop) : St α → List (Nat × Nat × α) → Prop
  | stop {s : St α} {x : Nat × Nat × α} (h0 : s.q ≠ []) (h1 : deref s = .ok x) (h2 : Fin (next g s)) : Chain g Fin s [x]
  | step {s s' : St α} {x : Nat × Nat × α} {xs : List (Nat × Nat × α)} (h0 : s.q ≠ []) (h1 : deref s = .ok x) (h2 : next g s = .ok s') (h : Chain g Fin s' xs) : Chain g Fin s (x :: xs)

theorem Chain.visits {g : Rows α} {Fin : Res (St α) → Prop} (hF : ∀ r, Fin r → ∃ s, r = .ok s ∧ s.q = []) {s : St α} {xs : List (Nat × Nat × α)} (h : Chain g Fin s xs) : (iter g).Visits s (.ok xs) := by
  refine Iter.visits_of (iter g) (fun s xs => (s.q = [] ∧ xs = []) ∨ Chain g Fin s xs) ?_ ?_ (.inr h)
  · rintro s (⟨h, _⟩ | h)
    · simp [iter, h]
    · cases h
  · rintro s x xs (⟨_, h⟩ | h)
    · cases h
    · cases h with
      | stop h0 h1 h2 =>
        obtain ⟨t, ht, hq⟩ := hF _ h2
        exact ⟨by simp [iter, h0], h1, t, ht, .inl ⟨hq, rfl⟩⟩
      | step h0 h1 h2 h => exact ⟨by simp [iter, h0], h1, _, h2, .inr h⟩

theorem Chain.faults {g : Rows α} {Fin : Res (St α) → Prop} {f : Fault} (hF : ∀ r, Fin r → r = .error f) {s : St α} {xs : List (Nat × Nat × α)} (h : Chain g Fin s xs) : (iter g).Visits s (.error f) := by
  refine Iter.visits_fault_of (iter g) f (fun s xs => ∃ ys, Chain g Fin s ys ∧ xs = ys.dropLast) ?_ ?_ ⟨xs, h, rfl⟩
  · rintro s ⟨ys, h, he⟩
    cases h with
    | stop h0 h1 h2 => exact ⟨by simp [iter, h0], .inr ⟨_, h1, hF _ h2⟩⟩
    | step h0 h1 h2 h =>
      cases h <;> simp at he
  · rintro s x xs ⟨ys, h, he⟩
    cases h with
    | stop h0 h1 h2 => simp at he
    | @step _ s' y ys h0 h1 h2 h =>
      have hne : ys ≠ [] := by cases h <;> simp
      rw [List.dropLast_cons_of_ne_nil hne] at he
      injection he with hx hxs
      subst hx
      exact ⟨by simp [iter, h0], h1, s', h2, ys, h, hxs⟩

theorem length_le_of_inside {n : Nat} {l : List Nat} (hn : l.Nodup) (h : ∀ x ∈ l, x < n) : l.length ≤ n := by
  have := (List.subperm_of_subset hn (l₂ := List.range n) (fun x hx => List.mem_range.2 (h x hx))).length_le
  simpa using this

/-- The search, down to the bottom of the stack. -/
theorem chain_of {g : Rows α} (hg : InRange g) {seed : Nat} (hloop : ∀ u, u ≠ seed → ¬ Edge g u u) {bot : List Nat} (hbot : bot ≠ []) :
    ∀ (k : Nat) {reached qs : List Nat} {colors : List Color} {v : Nat} {e : Nat × α} (rest : List (Nat × α)), g.length - reached.length ≤ k →
      Inv g seed bot reached qs colors v → fresh g reached v = some e →
      ∃ es, Chain g (fun r => ∃ colors', colors'.length = g.length ∧ r = unwind g bot colors' seed) ⟨qs ++ bot, colors, v, e :: rest⟩ es ∧ DepthFirst g reached es := by
  intro k
  induction k with
  | zero =>
    intro reached qs colors v e rest hk hI hv
    exfalso
    obtain ⟨he, hnr⟩ := fresh_eq_some hv
    have := length_le_of_inside (n := g.length) (l := e.1 :: reached) (List.nodup_cons.2 ⟨hnr, hI.nodup⟩) (by
      intro x hx
      rcases List.mem_cons.1 hx with rfl | hx
      · exact hg v _ (List.mem_map_of_mem he)
      · exact hI.inside x hx)
    simp only [List.length_cons] at this
    omega
  | succ k ih =>
    intro reached qs colors v e rest hk hI hv
    obtain ⟨later, earlier, hr, _, hl⟩ := split_path hI.nodup hI.path
    have hl' : ∀ u ∈ later, fresh g reached u = none := by
      intro u hu; exact hI.left u (by rw [hr]; simp [hu]) (hl u hu)
    have hdf : ∀ es, DepthFirst g (e.1 :: reached) es → DepthFirst g reached ((v, e) :: es) := by
      intro es h
      have h1 := hv
      rw [hr] at h h1 hl' ⊢
      exact .step hl' h1 h
    have hq : (St.mk (qs ++ bot) colors v (e :: rest)).q ≠ [] := by simp [hbot]
    rcases next_ok hg hloop hbot hI rest hv with ⟨qs', colors', v', rest', e', h1, h2, h3⟩ | ⟨h1, h2⟩
    · obtain ⟨es, h4, h5⟩ := ih (reached := e.1 :: reached) rest' (by simp only [List.length_cons]; omega) h2 h3
      exact ⟨_, .step hq rfl h1 h4, hdf _ h5⟩
    · exact ⟨[(v, e)], .stop hq rfl h2, hdf _ (.done h1)⟩

theorem unwind_seed {g : Rows α} {colors : List Color} {seed : Nat} (hs : seed < g.length) (hl : colors.length = g.length) :
    unwind g [seed] colors seed = .ok ⟨[], colors.set seed .black, seed, []⟩ := by
  rw [unwind, vset_of_lt (by omega), res_bind_ok, if_pos rfl]; rfl

theorem unwind_seed_twice {g : Rows α} {colors : List Color} {seed : Nat} (hs : seed < g.length) (hl : colors.length = g.length) :
    unwind g [seed, seed] colors seed = .error .assertFailed := by
  have hb : (colors.set seed .black)[seed]? = some .black := by rw [List.getElem?_set_self (by omega)]
  rw [unwind, vset_of_lt (by omega), res_bind_ok, if_neg (by simp), vget_of_getElem? hb, res_bind_ok]; rfl

theorem start_ok {g : Rows α} {seed : Nat} (hs : seed < g.length) : start g seed = .ok ⟨[seed], (List.replicate g.length Color.white).set seed .grey, seed, g.getD seed []⟩ := by
  unfold start
  rw [vset_of_lt (by simpa using hs), res_bind_ok, getD_of_lt g hs, res_bind_ok]; rfl

theorem inv_start {g : Rows α} {seed : Nat} (hs : seed < g.length) (bot : List Nat) : Inv g seed bot [seed] [] ((List.replicate g.length Color.white).set seed .grey) seed := by
  refine ⟨by simp, by simp, by simpa using hs, ?_, by simp, List.Sublist.refl _, by simp, by simp, by simp⟩
  intro x hx hr
  rw [List.getElem?_set_ne (by simpa [eq_comm] using hr)]
  simp [hx]

/-! ## The theorems -/

/-- **C132.** The loop goes along the edges of the depth-first search from the seed.  Missing: a seed without neighbours, a seed that is its own first neighbour, and other vertices that are their own neighbours, for which it is false (below). -/
theorem dfs_edges_search_partial (g : Rows α) (seed : Nat) (hg : InRange g) (hs : seed < g.length) (hloop : ∀ u, u ≠ seed → ¬ Edge g u u)
    (e : Nat × α) (hrow : (g.getD seed []).head? = some e) (hne : e.1 ≠ seed) :
    ∃ es, Visits g seed (.ok es) ∧ DepthFirst g [seed] es := by
  obtain ⟨rest, hr⟩ : ∃ rest, g.getD seed [] = e :: rest := by
    cases h : g.getD seed [] with
    | nil => rw [h] at hrow; cases hrow
    | cons a r => rw [h] at hrow; injection hrow with hrow; exact ⟨r, by rw [hrow]⟩
  have hv : fresh g [seed] seed = some e := by
    unfold fresh; rw [hr, List.find?_cons_of_pos (by simpa using hne)]
  obtain ⟨es, h1, h2⟩ := chain_of hg hloop (bot := [seed]) (by simp) _ rest (Nat.le_refl _) (inv_start hs [seed]) hv
  refine ⟨es, ?_, h2⟩
  unfold Visits
  rw [start_ok hs, hr]
  refine h1.visits ?_
  rintro r ⟨colors', h3, rfl⟩
  exact ⟨_, unwind_seed hs h3, rfl⟩

/-- **C132.** So every vertex that can be reached from the seed, and no other, is entered exactly once, along an edge of the graph. -/
theorem dfs_edges_tree_partial (g : Rows α) (seed : Nat) (hg : InRange g) (hs : seed < g.length) (hloop : ∀ u, u ≠ seed → ¬ Edge g u u)
    (e : Nat × α) (hrow : (g.getD seed []).head? = some e) (hne : e.1 ≠ seed) :
    ∃ es, Visits g seed (.ok es) ∧ (seed :: es.map fun e => e.2.1).Nodup ∧ (∀ x, x ∈ seed :: (es.map fun e => e.2.1) ↔ Reachable g seed x) ∧ ∀ e ∈ es, e.2 ∈ g.getD e.1 [] := by
  obtain ⟨es, h1, h2⟩ := dfs_edges_search_partial g seed hg hs hloop e hrow hne
  exact ⟨es, h1, depthFirst_reachable h2⟩

/-- **C132, false of the code:** from a vertex without neighbours nothing should be visited, and the loop reads past the row. -/
theorem dfs_edges_isolated_wrong (g : Rows α) (seed : Nat) (hs : seed < g.length) (hrow : g.getD seed [] = []) :
    DepthFirst g [seed] [] ∧ Visits g seed (.error .outOfBounds) := by
  refine ⟨.done ?_, ?_⟩
  · intro v hv; rw [List.mem_singleton.1 hv]; unfold fresh; rw [hrow]; rfl
  · unfold Visits
    rw [start_ok hs, hrow]
    exact Iter.visits_fault_of (iter g) .outOfBounds (fun s xs => s.q ≠ [] ∧ s.rest = [] ∧ xs = [])
      (by rintro s ⟨h1, h2, _⟩; exact ⟨by simp [iter, h1], .inl (by simp [iter, deref, h2])⟩)
      (by rintro s x xs ⟨_, _, h⟩; cases h) (xs := []) ⟨by simp, rfl, rfl⟩

/-- **C132, false of the code:** from a vertex that is its own first neighbour every loop ends with the assertion. -/
theorem dfs_edges_loop_wrong (g : Rows α) (seed : Nat) (hg : InRange g) (hs : seed < g.length) (hloop : ∀ u, u ≠ seed → ¬ Edge g u u)
    (e : Nat × α) (hrow : (g.getD seed []).head? = some e) (he : e.1 = seed) : Visits g seed (.error .assertFailed) := by
  obtain ⟨rest, hr⟩ : ∃ rest, g.getD seed [] = e :: rest := by
    cases h : g.getD seed [] with
    | nil => rw [h] at hrow; cases hrow
    | cons a r => rw [h] at hrow; injection hrow with hrow; exact ⟨r, by rw [hrow]⟩
  have hset : ((List.replicate g.length Color.white).set seed .grey).set seed .grey = (List.replicate g.length Color.white).set seed .grey := by simp
  have hI := inv_start hs [seed, seed]
  have hskip : skip ((List.replicate g.length Color.white).set seed .grey) (g.getD seed []) = .ok ((g.getD seed []).dropWhile fun x => decide (x.1 ∈ [seed])) := by
    apply skip_eq
    · intro x hx hn; exact hI.white x.1 (hg seed x.1 (List.mem_map_of_mem hx)) hn
    · intro x hx hn
      rw [List.mem_singleton.1 hn]
      exact ⟨.grey, by rw [List.getElem?_set_self (by simpa using hs)], by simp⟩
  have hnx : next g ⟨[seed], (List.replicate g.length Color.white).set seed .grey, seed, e :: rest⟩ =
      if ((g.getD seed []).dropWhile fun x => decide (x.1 ∈ [seed])) = [] then unwind g [seed, seed] ((List.replicate g.length Color.white).set seed .grey) seed
      else .ok ⟨[seed, seed], (List.replicate g.length Color.white).set seed .grey, seed, (g.getD seed []).dropWhile fun x => decide (x.1 ∈ [seed])⟩ := by
    unfold next
    dsimp only
    rw [vset_of_lt (by simpa using hs), res_bind_ok, he, getD_of_lt g hs, res_bind_ok, hset, hskip, res_bind_ok]
    rfl
  unfold Visits
  rw [start_ok hs, hr]
  have hd := dropWhile_fresh g [seed] seed
  suffices h : ∃ xs, Chain g (fun r => ∃ colors', colors'.length = g.length ∧ r = unwind g [seed, seed] colors' seed) ⟨[seed], (List.replicate g.length Color.white).set seed .grey, seed, e :: rest⟩ xs by
    obtain ⟨xs, h⟩ := h
    refine h.faults ?_
    rintro r ⟨c, h1, rfl⟩
    exact unwind_seed_twice hs h1
  cases hf : fresh g [seed] seed with
  | none =>
    rw [hf] at hd
    rw [if_pos (List.head?_eq_none_iff.1 hd)] at hnx
    exact ⟨_, .stop (by simp) rfl ⟨_, by simp, hnx⟩⟩
  | some e' =>
    rw [hf] at hd
    obtain ⟨rest', hr'⟩ : ∃ rest', ((g.getD seed []).dropWhile fun x => decide (x.1 ∈ [seed])) = e' :: rest' := by
      cases hl : (g.getD seed []).dropWhile fun x => decide (x.1 ∈ [seed]) with
      | nil => rw [hl] at hd; cases hd
      | cons a r => rw [hl] at hd; injection hd with hd; exact ⟨r, by rw [hd]⟩
    rw [hr', if_neg (by simp)] at hnx
    obtain ⟨es, h1, _⟩ := chain_of hg hloop (bot := [seed, seed]) (by simp) _ rest' (Nat.le_refl _) hI hf
    exact ⟨_, .step (by simp) rfl hnx h1⟩

/-- **C132, false of the code:** so does a loop that enters another vertex that is its own first neighbour. -/
theorem dfs_edges_later_loop_wrong : Visits [[(1, ())], [(1, ())]] 0 (.error .assertFailed) ∧ DepthFirst [[(1, ())], [(1, ())]] [0] [(0, 1, ())] := by
  refine ⟨?_, ?_⟩
  · exact Iter.visits_of_runFuel (n := 10) (by decide +kernel)
  · exact .step (later := []) (earlier := []) (by simp) (by decide +kernel) (.done (by decide +kernel))

-- 0 → 1, 2; 1 → 3; 3 → 0; 2 → 3: the hypotheses hold, and the edges come out as expected
example : InRange [[(1, 'a'), (2, 'b')], [(3, 'c')], [(3, 'd')], [(0, 'e')]] ∧ (∀ u, u ≠ 0 → ¬ Edge [[(1, 'a'), (2, 'b')], [(3, 'c')], [(3, 'd')], [(0, 'e')]] u u) := by
  constructor
  · intro u w h
    match u, h with
    | 0, h | 1, h | 2, h | 3, h => revert h; simp [Edge, nbrs]; try omega
    | n + 4, h => simp [Edge, nbrs] at h
  · intro u _ h
    match u, h with
    | 0, h | 1, h | 2, h | 3, h => revert h; simp [Edge, nbrs]
    | n + 4, h => simp [Edge, nbrs] at h

example : Visits [[(1, 'a'), (2, 'b')], [(3, 'c')], [(3, 'd')], [(0, 'e')]] 0 (.ok [(0, 1, 'a'), (1, 3, 'c'), (0, 2, 'b')]) := by
  exact Iter.visits_of_runFuel (n := 10) (by decide +kernel)

end NW.DfsEdges
