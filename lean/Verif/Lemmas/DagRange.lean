import Verif.Model.DagRange
import Verif.Spec.Dag
import Verif.Lemmas.ListRes
import Verif.Lemmas.PathCount
import Mathlib.Order.WellFounded
import Mathlib.Data.Fintype.Basic
import Mathlib.Algebra.BigOperators.Group.Finset.Basic
import Mathlib.Algebra.Order.BigOperators.Group.Finset

/-!
# Lemmas for `dag_range`
-/

namespace NW.DagRange
open Spec

variable {pred succ : List (List Nat)}

/-- The edges of `u`. -/
def ed (succ : List (List Nat)) (u : Nat) : List (Nat × Nat) := (succ.getD u []).map fun w => (u, w)

/-- How many of the edges lead to `w`. -/
def tc (C : List (Nat × Nat)) (w : Nat) : Nat := (C.map Prod.snd).count w

def indeg (pred : List (List Nat)) (w : Nat) : Nat := (pred.getD w []).length

theorem tc_append (C D : List (Nat × Nat)) (w : Nat) : tc (C ++ D) w = tc C w + tc D w := by
  unfold tc; rw [List.map_append, List.count_append]

theorem tc_single (a b w : Nat) : tc [(a, b)] w = if b = w then 1 else 0 := by
  unfold tc; simp [List.count_singleton]

theorem tc_ed (u w : Nat) : tc (ed succ u) w = (succ.getD u []).count w := by
  unfold tc ed; rw [List.map_map]; congr 1; simp [Function.comp_def]

theorem tc_flatMap (vs : List Nat) (w : Nat) : tc (vs.flatMap (ed succ)) w = (vs.map fun u => (succ.getD u []).count w).sum := by
  induction vs with
  | nil => rfl
  | cons v vs ih => rw [List.flatMap_cons, tc_append, tc_ed, ih]; rfl

theorem length_flatMap (vs : List Nat) : (vs.flatMap (ed succ)).length = (vs.map fun u => (succ.getD u []).length).sum := by
  induction vs with
  | nil => rfl
  | cons v vs ih => rw [List.flatMap_cons, List.length_append, ih]; simp [ed]

theorem sum_le {vs : List Nat} {n : Nat} (hn : vs.Nodup) (hl : ∀ v ∈ vs, v < n) (f : Nat → Nat) : (vs.map f).sum ≤ ∑ u ∈ Finset.range n, f u := by
  rw [← List.sum_toFinset f hn]
  apply Finset.sum_le_sum_of_subset
  intro v hv
  rw [Finset.mem_range]
  exact hl v (List.mem_toFinset.1 hv)

theorem indeg_eq (h : Dag pred succ) (w : Nat) : indeg pred w = ∑ u ∈ Finset.range succ.length, (succ.getD u []).count w := by
  unfold indeg
  have : ∀ l : List Nat, (∀ u ∈ l, u < succ.length) → l.length = ∑ u ∈ Finset.range succ.length, l.count u := by
    intro l hl
    induction l with
    | nil => simp
    | cons x l ih =>
      simp only [List.count_cons, Finset.sum_add_distrib]
      rw [← ih fun u hu => hl u (by simp [hu])]
      have hx := hl x (by simp)
      simp [hx]
  rw [this (pred.getD w [])]
  · exact Finset.sum_congr rfl fun u _ => h.consistent u w
  · intro u hu
    by_contra hc
    have h1 : 0 < (pred.getD w []).count u := List.count_pos_iff.2 hu
    rw [h.consistent, List.getD_eq_getElem?_getD, List.getElem?_eq_none (by omega)] at h1
    simp at h1

/-- What has been counted never exceeds the number of predecessors. -/
theorem tc_le (h : Dag pred succ) {vs : List Nat} (hn : vs.Nodup) (hl : ∀ v ∈ vs, v < succ.length) (w : Nat) : tc (vs.flatMap (ed succ)) w ≤ indeg pred w := by
  rw [tc_flatMap, indeg_eq h]
  exact sum_le hn hl _

/-- The counters, the queue and what they say about the edges `C` counted so far; `order` lists the vertices queued so far. -/
structure Cnt (pred succ : List (List Nat)) (C : List (Nat × Nat)) (order counter : List Nat) : Prop where
  nodup : order.Nodup
  lt : ∀ w ∈ order, w < succ.length
  clen : counter.length = succ.length
  cnt : ∀ w, w < succ.length → counter[w]? = some (tc C w)
  queued : ∀ w, w < succ.length → (w ∈ order ↔ tc C w = indeg pred w)
  topo : ∀ i a b, C[i]? = some (a, b) → tc (C.take i) a = indeg pred a

/-- The iterator stands at `v_`, of whose edges `k` are counted; the vertices in `done` are finished. -/
structure At (pred succ : List (List Nat)) (done : List Nat) (st : St) (k : Nat) : Prop where
  head : ∃ tl, st.q = st.v :: tl
  cnt : Cnt pred succ (done.flatMap (ed succ) ++ (ed succ st.v).take k) (done ++ st.q) st.counter
  early : ∀ w ∈ done, tc (done.flatMap (ed succ)) w = indeg pred w

theorem getD_of_lt {l : List (List Nat)} {i : Nat} (h : i < l.length) : l.getD i [] = l[i] := by
  rw [List.getD_eq_getElem?_getD, List.getElem?_eq_getElem h]; rfl

theorem vget_getD {l : List (List Nat)} {i : Nat} (h : i < l.length) : vget l i = .ok (l.getD i []) := by
  rw [getD_of_lt h, vget_of_lt h]

theorem At.lt {done : List Nat} {st : St} {k : Nat} (h : At pred succ done st k) : st.v < succ.length := by
  obtain ⟨tl, htl⟩ := h.head
  exact h.cnt.lt _ (by rw [htl]; simp)

theorem At.nodup {done : List Nat} {st : St} {k : Nat} (h : At pred succ done st k) : (done ++ [st.v]).Nodup := by
  obtain ⟨tl, htl⟩ := h.head
  have := h.cnt.nodup
  rw [htl, ← List.singleton_append, ← List.append_assoc] at this
  exact (List.nodup_append.1 this).1

theorem At.lts {done : List Nat} {st : St} {k : Nat} (h : At pred succ done st k) : ∀ v ∈ done ++ [st.v], v < succ.length := by
  intro v hv
  rcases List.mem_append.1 hv with hv | hv
  · exact h.cnt.lt _ (List.mem_append_left _ hv)
  · rw [List.mem_singleton.1 hv]; exact h.lt

theorem take_ed_succ {v j : Nat} {w : Nat} (hw : (succ.getD v [])[j]? = some w) : (ed succ v).take (j + 1) = (ed succ v).take j ++ [(v, w)] := by
  rw [List.take_add_one]
  congr 1
  unfold ed
  rw [List.getElem?_map, hw]; rfl

theorem tc_take_le {v k w : Nat} : tc ((ed succ v).take k) w ≤ tc (ed succ v) w := by
  conv_rhs => rw [← List.take_append_drop k (ed succ v)]
  rw [tc_append]; omega

theorem tc_prefix_le (C : List (Nat × Nat)) (i w : Nat) : tc (C.take i) w ≤ tc C w := by
  conv_rhs => rw [← List.take_append_drop i C]
  rw [tc_append]; omega

/-- Counting the edge under the iterator. -/
theorem countEdge_ok (hd : Dag pred succ) {done : List Nat} {st : St} (h : At pred succ done st st.j) (hj : st.j < (succ.getD st.v []).length) :
    ∃ st' w, countEdge pred succ st = .ok st' ∧ (succ.getD st.v [])[st.j]? = some w ∧ At pred succ done st' (st.j + 1) ∧ st'.v = st.v ∧ st'.j = st.j ∧
      st'.ready = decide (tc (done.flatMap (ed succ) ++ (ed succ st.v).take (st.j + 1)) w = indeg pred w) := by
  obtain ⟨w, hw⟩ : ∃ w, (succ.getD st.v [])[st.j]? = some w := ⟨_, List.getElem?_eq_getElem hj⟩
  have hwn : w < succ.length := hd.inRange st.v w (List.mem_of_getElem? hw)
  set C := done.flatMap (ed succ) ++ (ed succ st.v).take st.j with hC
  have hC' : done.flatMap (ed succ) ++ (ed succ st.v).take (st.j + 1) = C ++ [(st.v, w)] := by
    rw [take_ed_succ hw, ← List.append_assoc]
  have htc : ∀ x, tc (C ++ [(st.v, w)]) x = tc C x + if w = x then 1 else 0 := fun x => by rw [tc_append, tc_single]
  have hle : ∀ x, tc (C ++ [(st.v, w)]) x ≤ indeg pred x := by
    intro x
    refine Nat.le_trans ?_ (tc_le hd h.nodup h.lts x)
    rw [← hC', List.flatMap_append, tc_append, tc_append]
    have := @tc_take_le succ st.v (st.j + 1) x
    simp only [List.flatMap_cons, List.flatMap_nil, List.append_nil]
    omega
  have hcw : vget st.counter w = .ok (tc C w) := by unfold vget; rw [h.cnt.cnt w hwn]
  have hset : vset st.counter w (tc C w + 1) = .ok (st.counter.set w (tc C w + 1)) := vset_of_lt (by rw [h.cnt.clen]; exact hwn)
  have hpw : vget pred w = .ok (pred.getD w []) := vget_getD (by rw [hd.len]; exact hwn)
  have hgw : vget (succ.getD st.v []) st.j = .ok w := by unfold vget; rw [hw]
  have hcnt' : ∀ x, x < succ.length → (st.counter.set w (tc C w + 1))[x]? = some (tc (C ++ [(st.v, w)]) x) := by
    intro x hx
    rw [htc]
    by_cases hxw : w = x
    · subst hxw
      rw [List.getElem?_set_self (by rw [h.cnt.clen]; exact hwn), if_pos rfl]
    · rw [List.getElem?_set_ne hxw, if_neg hxw, h.cnt.cnt x hx]; rfl
  have htopo : ∀ i a b, (C ++ [(st.v, w)])[i]? = some (a, b) → tc ((C ++ [(st.v, w)]).take i) a = indeg pred a := by
    intro i a b hi
    rcases Nat.lt_or_ge i C.length with hl | hl
    · rw [List.getElem?_append_left hl] at hi
      rw [List.take_append_of_le_length (by omega)]
      exact h.cnt.topo i a b hi
    · have hi' : i = C.length := by
        have := (List.getElem?_eq_some_iff.1 hi).1
        simp at this
        omega
      subst hi'
      simp only [List.getElem?_append_right (Nat.le_refl _), Nat.sub_self, List.getElem?_cons_zero, Option.some.injEq, Prod.mk.injEq] at hi
      rw [List.take_left, ← hi.1]
      obtain ⟨tl, htl⟩ := h.head
      exact (h.cnt.queued _ h.lt).1 (by rw [htl]; simp)
  have hlt : tc C w < indeg pred w := by
    have := hle w
    rw [htc, if_pos rfl] at this
    omega
  have hnw : w ∉ done ++ st.q := fun hm => by
    have : tc C w = indeg pred w := (h.cnt.queued w hwn).1 hm
    omega
  obtain ⟨tl, htl⟩ := h.head
  have hco : countEdge pred succ st = if tc C w + 1 = (pred.getD w []).length then
      .ok { st with counter := st.counter.set w (tc C w + 1), ready := true, q := st.q ++ [w] } else .ok { st with counter := st.counter.set w (tc C w + 1), ready := false } := by
    unfold countEdge
    rw [vget_getD h.lt, res_bind_ok, if_pos (by omega), hgw, res_bind_ok, hcw, res_bind_ok, hset, res_bind_ok, hpw, res_bind_ok]
    split <;> rfl
  rw [hco]
  by_cases hfull : tc C w + 1 = (pred.getD w []).length
  · rw [if_pos hfull]
    refine ⟨_, w, rfl, hw, ⟨⟨tl ++ [w], by simp [htl]⟩, ⟨?_, ?_, by simp [h.cnt.clen], ?_, ?_, ?_⟩, h.early⟩, rfl, rfl, ?_⟩
    · dsimp only
      rw [← List.append_assoc, List.nodup_append]
      refine ⟨h.cnt.nodup, by simp, ?_⟩
      intro a ha b hb
      rw [List.mem_singleton.1 hb]
      exact fun e => hnw (e ▸ ha)
    · dsimp only
      intro x hx
      rw [← List.append_assoc] at hx
      rcases List.mem_append.1 hx with hx | hx
      · exact h.cnt.lt x hx
      · rw [List.mem_singleton.1 hx]; exact hwn
    · dsimp only; rw [hC']; exact hcnt'
    · dsimp only
      intro x hx
      rw [hC', htc, ← List.append_assoc, List.mem_append, h.cnt.queued x hx, List.mem_singleton]
      by_cases hxw : w = x
      · subst hxw
        simp only [or_true, if_true, true_iff]
        exact hfull
      · rw [if_neg hxw]
        constructor
        · rintro (e | e)
          · exact e
          · exact absurd e.symm hxw
        · exact fun e => Or.inl e
    · dsimp only; rw [hC']; exact htopo
    · dsimp only
      rw [hC', htc, if_pos rfl]
      exact (decide_eq_true hfull).symm
  · rw [if_neg hfull]
    refine ⟨_, w, rfl, hw, ⟨⟨tl, htl⟩, ⟨h.cnt.nodup, h.cnt.lt, by simp [h.cnt.clen], ?_, ?_, ?_⟩, h.early⟩, rfl, rfl, ?_⟩
    · dsimp only; rw [hC']; exact hcnt'
    · dsimp only
      intro x hx
      rw [hC', htc, h.cnt.queued x hx]
      by_cases hxw : w = x
      · subst hxw
        rw [if_pos rfl]
        constructor
        · intro e
          have : tc C w = indeg pred w := e
          omega
        · exact fun e => absurd e hfull
      · rw [if_neg hxw]; rfl
    · dsimp only; rw [hC']; exact htopo
    · dsimp only
      rw [hC', htc, if_pos rfl]
      exact (decide_eq_false hfull).symm

/-- Finding the next vertex with successors. -/
theorem nextVertex_ok {counter : List Nat} (q : List Nat) (v j : Nat) (done : List Nat) (h : Cnt pred succ (done.flatMap (ed succ)) (done ++ q) counter)
    (he : ∀ w ∈ done, tc (done.flatMap (ed succ)) w = indeg pred w) :
    ∃ q' v' j' done', nextVertex succ q v j = .ok (q', v', j') ∧ done' ++ q' = done ++ q ∧ done'.flatMap (ed succ) = done.flatMap (ed succ) ∧
      (∀ w ∈ done', tc (done'.flatMap (ed succ)) w = indeg pred w) ∧
      ((q' = [] ∧ q = [] ∧ v' = v ∧ j' = j) ∨ (q' = [] ∧ v' < succ.length ∧ succ.getD v' [] = []) ∨ (∃ tl, q' = v' :: tl ∧ j' = 0 ∧ 0 < (succ.getD v' []).length)) := by
  induction q generalizing v done with
  | nil => exact ⟨[], v, j, done, rfl, rfl, rfl, he, Or.inl ⟨rfl, rfl, rfl, rfl⟩⟩
  | cons x q ih =>
    have hx : x < succ.length := h.lt x (by simp)
    by_cases hs : (succ.getD x []).length = 0
    · have hnil : succ.getD x [] = [] := List.length_eq_zero_iff.1 hs
      have hed : ed succ x = [] := by unfold ed; rw [hnil]; rfl
      have hfm : (done ++ [x]).flatMap (ed succ) = done.flatMap (ed succ) := by rw [List.flatMap_append]; simp [hed]
      have h' : Cnt pred succ ((done ++ [x]).flatMap (ed succ)) ((done ++ [x]) ++ q) counter := by
        rw [hfm, List.append_assoc]; exact h
      obtain ⟨q', v', j', done', h1, h2, h3, h4, h5⟩ := ih x (done ++ [x]) h' (by
        intro w hw
        rw [hfm]
        rcases List.mem_append.1 hw with hw | hw
        · exact he w hw
        · rw [List.mem_singleton.1 hw]; exact (h.queued x hx).1 (by simp))
      refine ⟨q', v', j', done', ?_, by rw [h2]; simp, by rw [h3, hfm], h4, ?_⟩
      · rw [nextVertex, vget_getD hx, res_bind_ok, if_pos hs, h1]
      · rcases h5 with ⟨a, -, b, -⟩ | h5 | h5
        · exact Or.inr (Or.inl ⟨a, b ▸ hx, b ▸ hnil⟩)
        · exact Or.inr (Or.inl h5)
        · exact Or.inr (Or.inr h5)
    · exact ⟨x :: q, x, 0, done, by rw [nextVertex, vget_getD hx, res_bind_ok, if_neg hs]; rfl, rfl, rfl, he, Or.inr (Or.inr ⟨q, rfl, rfl, by omega⟩)⟩

/-- In an acyclic graph the search is complete when the queue is empty. -/
theorem complete (hd : Dag pred succ) {order counter : List Nat} (h : Cnt pred succ (order.flatMap (ed succ)) order counter) : ∀ w, w < succ.length → w ∈ order := by
  have wf : WellFounded fun u w : Fin succ.length => Relation.TransGen (Arc succ) u.1 w.1 := by
    have : Std.Irrefl fun u w : Fin succ.length => Relation.TransGen (Arc succ) u.1 w.1 := ⟨fun u => hd.acyclic u.1⟩
    have : IsTrans (Fin succ.length) fun u w : Fin succ.length => Relation.TransGen (Arc succ) u.1 w.1 := ⟨fun _ _ _ h1 h2 => h1.trans h2⟩
    exact Finite.wellFounded_of_trans_of_irrefl _
  suffices key : ∀ w : Fin succ.length, w.1 ∈ order from fun w hw => key ⟨w, hw⟩
  intro w
  induction w using wf.induction with
  | _ w ih =>
    rw [h.queued _ w.2]
    rw [tc_flatMap, indeg_eq hd, ← List.sum_toFinset _ h.nodup]
    apply Finset.sum_subset
    · intro u hu
      exact Finset.mem_range.2 (h.lt u (List.mem_toFinset.1 hu))
    · intro u hu hn
      rw [List.count_eq_zero]
      intro hm
      exact hn (List.mem_toFinset.2 (ih ⟨u, Finset.mem_range.1 hu⟩ (.single hm)))

/-- The end: all vertices have been queued, and these are the edges in the order visited. -/
structure Final (pred succ : List (List Nat)) (C : List (Nat × Nat)) : Prop where
  perm : C.Perm (arcs succ)
  full : ∀ w, w < succ.length → tc C w = indeg pred w
  topo : ∀ i a b, C[i]? = some (a, b) → tc (C.take i) a = indeg pred a

theorem final_of (hd : Dag pred succ) {order counter : List Nat} (h : Cnt pred succ (order.flatMap (ed succ)) order counter) : Final pred succ (order.flatMap (ed succ)) := by
  have hc := complete hd h
  refine ⟨?_, fun w hw => (h.queued w hw).1 (hc w hw), h.topo⟩
  have hp : order.Perm (List.range succ.length) := by
    rw [List.perm_ext_iff_of_nodup h.nodup List.nodup_range]
    intro w
    rw [List.mem_range]
    exact ⟨h.lt w, hc w⟩
  exact hp.flatMap_right (ed succ)

/-- After `advance_next`: the range is finished, or the iterator stands at the next edge, which has been counted. -/
theorem advance_ok (hd : Dag pred succ) {done : List Nat} {st : St} (h : At pred succ done st st.j) (hj : st.j ≤ (succ.getD st.v []).length) :
    ∃ st', advance pred succ st = .ok st' ∧
      ((st'.q = [] ∧ Final pred succ (done.flatMap (ed succ) ++ (ed succ st.v).take st.j)) ∨
       (∃ done' w, At pred succ done' st' (st'.j + 1) ∧ st'.q ≠ [] ∧ (succ.getD st'.v [])[st'.j]? = some w ∧
         done'.flatMap (ed succ) ++ (ed succ st'.v).take st'.j = done.flatMap (ed succ) ++ (ed succ st.v).take st.j ∧
         st'.ready = decide (tc (done'.flatMap (ed succ) ++ (ed succ st'.v).take (st'.j + 1)) w = indeg pred w))) := by
  obtain ⟨tl, htl⟩ := h.head
  unfold advance leave
  by_cases hj' : st.j = (succ.getD st.v []).length
  · have htake : (ed succ st.v).take st.j = ed succ st.v := List.take_of_length_le (by unfold ed; rw [List.length_map]; omega)
    have hC : done.flatMap (ed succ) ++ (ed succ st.v).take st.j = (done ++ [st.v]).flatMap (ed succ) := by
      rw [htake, List.flatMap_append]; simp
    have hord : done ++ st.q = (done ++ [st.v]) ++ tl := by rw [htl]; simp
    have hcnt : Cnt pred succ ((done ++ [st.v]).flatMap (ed succ)) ((done ++ [st.v]) ++ tl) st.counter := by
      have := h.cnt
      rwa [hC, hord] at this
    have hearly : ∀ w ∈ done ++ [st.v], tc ((done ++ [st.v]).flatMap (ed succ)) w = indeg pred w := by
      intro w hw
      exact (hcnt.queued w (hcnt.lt w (List.mem_append_left _ hw))).1 (List.mem_append_left _ hw)
    obtain ⟨q', v', j', done', h1, h2, h3, h4, h5⟩ := nextVertex_ok tl st.v st.j _ hcnt hearly
    rw [vget_getD h.lt, res_bind_ok, if_pos hj', htl]
    dsimp only
    rw [h1, res_bind_ok]
    simp only [pure, Except.pure, res_bind_ok]
    rcases h5 with ⟨rfl, rfl, rfl, rfl⟩ | ⟨rfl, hv', hs⟩ | ⟨tl', rfl, rfl, hpos⟩
    · -- the queue is empty right after the current vertex
      simp only [List.append_nil] at hcnt h2
      have hc := complete hd hcnt
      by_cases hs : (succ.getD st.v []).length = 0
      · refine ⟨{ st with q := [] }, ?_, Or.inl ⟨rfl, ?_⟩⟩
        · unfold countEdge
          dsimp only
          rw [vget_getD h.lt, res_bind_ok, if_neg (by omega)]; rfl
        · rw [hC]; exact final_of hd hcnt
      · exfalso
        obtain ⟨w, hw⟩ : ∃ w, w ∈ succ.getD st.v [] := List.exists_mem_of_length_pos (by omega)
        have hwn := hd.inRange st.v w hw
        rcases List.mem_append.1 (hc w hwn) with hwd | hwd
        · have e1 := h.early w hwd
          have e2 := hearly w (List.mem_append_left _ hwd)
          rw [List.flatMap_append, tc_append, e1] at e2
          simp only [List.flatMap_cons, List.flatMap_nil, List.append_nil] at e2
          rw [tc_ed] at e2
          have : 0 < (succ.getD st.v []).count w := List.count_pos_iff.2 hw
          omega
        · rw [List.mem_singleton] at hwd
          subst hwd
          exact hd.acyclic _ (.single hw)
    · refine ⟨{ st with q := [], v := v', j := j' }, ?_, Or.inl ⟨rfl, ?_⟩⟩
      · unfold countEdge
        dsimp only
        rw [vget_getD hv', res_bind_ok, hs]; rfl
      · rw [List.append_nil] at h2
        rw [hC, ← h3]
        have : Cnt pred succ (done'.flatMap (ed succ)) done' st.counter := by rw [h3, h2]; exact hcnt
        exact final_of hd this
    · have hat : At pred succ done' { st with q := v' :: tl', v := v', j := 0 } 0 := by
        refine ⟨⟨tl', rfl⟩, ?_, h4⟩
        dsimp only
        rw [List.take_zero, List.append_nil, h2, h3]
        exact hcnt
      obtain ⟨st', w, k1, k2, k3, k4, k5, k6⟩ := countEdge_ok hd hat hpos
      dsimp only at k4 k5 k6 k2 k3
      refine ⟨st', k1, Or.inr ⟨done', w, by rw [k5]; exact k3, ?_, by rw [k4, k5]; exact k2, ?_, by rw [k4, k5]; exact k6⟩⟩
      · obtain ⟨_, e⟩ := k3.head; rw [e]; simp
      · rw [k4, k5, List.take_zero, List.append_nil, h3, hC]
  · rw [vget_getD h.lt, res_bind_ok, if_neg hj']
    simp only [pure, Except.pure, res_bind_ok]
    obtain ⟨st', w, k1, k2, k3, k4, k5, k6⟩ := countEdge_ok hd h (by omega)
    refine ⟨st', k1, Or.inr ⟨done, w, by rw [k5]; exact k3, ?_, by rw [k4, k5]; exact k2, by rw [k4, k5], by rw [k4, k5]; exact k6⟩⟩
    obtain ⟨_, e⟩ := k3.head; rw [e]; simp

theorem roots_ok (hd : Dag pred succ) : roots pred succ.length = .ok ((List.range succ.length).filter fun i => indeg pred i = 0) := by
  unfold roots
  have : ∀ (l : List Nat) (acc : List Nat), (∀ i ∈ l, i < succ.length) → l.foldlM (fun q i => do
      let p ← vget pred i
      return if p.length = 0 then q ++ [i] else q) acc = (.ok (acc ++ l.filter fun i => indeg pred i = 0) : Res (List Nat)) := by
    intro l
    induction l with
    | nil => intro acc _; simp [pure, Except.pure]
    | cons x l ih =>
      intro acc hl
      have hx : x < pred.length := by rw [hd.len]; exact hl x (by simp)
      rw [List.foldlM_cons, vget_getD hx]
      simp only [res_bind_ok, pure, Except.pure] at ih ⊢
      rw [ih _ fun i hi => hl i (by simp [hi])]
      by_cases h0 : (pred.getD x []).length = 0
      · have h1 : indeg pred x = 0 := h0
        rw [if_pos h0, List.filter_cons_of_pos (by simp [h1])]; simp
      · have h1 : indeg pred x ≠ 0 := h0
        rw [if_neg h0, List.filter_cons_of_neg (by simp [h1])]
  rw [this _ _ fun i hi => List.mem_range.1 hi]; rfl

end NW.DagRange
