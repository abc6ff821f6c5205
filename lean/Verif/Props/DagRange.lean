import Verif.Lemmas.DagRange

/-!
# C61: `dag_range`
-/

namespace NW.DagRange
open Spec

variable {pred succ : List (List Nat)}

/-- What is delivered so far are the edges `C`, each flagged by whether it completes the predecessors of its target. -/
def Out (pred : List (List Nat)) (C : List (Nat × Nat)) (out : List (Nat × Nat × Bool)) : Prop :=
  out.map (fun e => (e.1, e.2.1)) = C ∧ ∀ (i : Nat) (a b : Nat) (r : Bool), out[i]? = some (a, b, r) → r = decide (tc (C.take (i + 1)) b = indeg pred b)

theorem Out.push {C : List (Nat × Nat)} {out : List (Nat × Nat × Bool)} (h : Out pred C out) (a b : Nat) (r : Bool) (hr : r = decide (tc (C ++ [(a, b)]) b = indeg pred b)) :
    Out pred (C ++ [(a, b)]) (out ++ [(a, b, r)]) := by
  have hl : out.length = C.length := by rw [← h.1, List.length_map]
  refine ⟨by rw [List.map_append, h.1]; rfl, ?_⟩
  intro i a' b' r' hi
  rcases Nat.lt_or_ge i out.length with hlt | hge
  · rw [List.getElem?_append_left hlt] at hi
    rw [List.take_append_of_le_length (by omega)]
    exact h.2 i a' b' r' hi
  · have hi' : i = out.length := by
      have := (List.getElem?_eq_some_iff.1 hi).1
      simp at this
      omega
    subst hi'
    simp only [List.getElem?_append_right (Nat.le_refl _), Nat.sub_self, List.getElem?_cons_zero, Option.some.injEq, Prod.mk.injEq] at hi
    obtain ⟨rfl, rfl, rfl⟩ := hi
    rw [List.take_of_length_le (by simp; omega)]
    exact hr

/-- The state at the head of the loop. -/
def Inv (pred succ : List (List Nat)) (s : St × List (Nat × Nat × Bool)) : Prop :=
  (s.1.q = [] ∧ ∃ C, Final pred succ C ∧ Out pred C s.2) ∨
  (∃ done w, At pred succ done s.1 (s.1.j + 1) ∧ s.1.q ≠ [] ∧ (succ.getD s.1.v [])[s.1.j]? = some w ∧
    Out pred (done.flatMap (ed succ) ++ (ed succ s.1.v).take s.1.j) s.2 ∧
    s.1.ready = decide (tc (done.flatMap (ed succ) ++ (ed succ s.1.v).take (s.1.j + 1)) w = indeg pred w))

theorem Inv.of_advance (hd : Dag pred succ) {done : List Nat} {st : St} {out : List (Nat × Nat × Bool)} (h : At pred succ done st st.j) (hj : st.j ≤ (succ.getD st.v []).length)
    (ho : Out pred (done.flatMap (ed succ) ++ (ed succ st.v).take st.j) out) : ∃ st', advance pred succ st = .ok st' ∧ Inv pred succ (st', out) := by
  obtain ⟨st', h1, h2⟩ := advance_ok hd h hj
  refine ⟨st', h1, ?_⟩
  rcases h2 with ⟨h2, h3⟩ | ⟨done', w, h2, h3, h4, h5, h6⟩
  · exact Or.inl ⟨h2, _, h3, ho⟩
  · exact Or.inr ⟨done', w, h2, h3, h4, by dsimp only; rw [h5]; exact ho, h6⟩

theorem Inv.bound {done : List Nat} {st : St} {k : Nat} (h : At pred succ done st k) :
    (done.flatMap (ed succ) ++ (ed succ st.v).take k).length ≤ (arcs succ).length := by
  have h1 : (done.flatMap (ed succ) ++ (ed succ st.v).take k).length ≤ ((done ++ [st.v]).flatMap (ed succ)).length := by
    rw [List.flatMap_append, List.length_append, List.length_append]
    simp only [List.flatMap_cons, List.flatMap_nil, List.append_nil, List.length_take]
    omega
  refine Nat.le_trans h1 ?_
  rw [length_flatMap]
  refine Nat.le_trans (sum_le h.nodup h.lts _) ?_
  have : arcs succ = (List.range succ.length).flatMap (ed succ) := rfl
  rw [this, length_flatMap, ← List.sum_toFinset _ List.nodup_range]
  refine le_of_eq (Finset.sum_congr ?_ fun _ _ => rfl)
  ext u; simp

/-- C61 (what holds).  Missing: the empty graph (below).  Over consistent predecessor and successor lists of a non-empty acyclic graph the loop ends without a fault; it delivers every edge exactly once (as often as it
is stored); every edge into a vertex comes before every edge out of it; and an edge is flagged as ready exactly when no later edge has the same target. -/
theorem dag_range_topological_partial (hd : Dag pred succ) (hne : 0 < succ.length) (ready0 : Bool) :
    ∃ st out, start pred succ succ.length ready0 = .ok st ∧ Loop (round pred succ) (st, []) (.ok out) ∧
      (out.map fun e => (e.1, e.2.1)).Perm (arcs succ) ∧
      (∀ (i j a b c : Nat) (r r' : Bool), out[i]? = some (a, b, r) → out[j]? = some (b, c, r') → i < j) ∧
      (∀ (i a b : Nat) (r : Bool), out[i]? = some (a, b, r) → (r = true ↔ ∀ (j a' : Nat) (r' : Bool), i < j → out[j]? ≠ some (a', b, r'))) := by
  -- the start
  have hroots := roots_ok hd
  set rs := (List.range succ.length).filter fun i => indeg pred i = 0 with hrs
  have hcnt0 : Cnt pred succ [] rs (List.replicate succ.length 0) := by
    refine ⟨List.nodup_range.filter _, ?_, by simp, ?_, ?_, by simp⟩
    · intro w hw
      exact List.mem_range.1 (List.mem_filter.1 hw).1
    · intro w hw
      rw [List.getElem?_replicate, if_pos hw]; rfl
    · intro w hw
      rw [hrs, List.mem_filter, List.mem_range]
      simp only [hw, true_and, decide_eq_true_eq]
      exact ⟨fun e => e.symm, fun e => e.symm⟩
  have hrne : rs ≠ [] := by
    intro e
    rw [e] at hcnt0
    have := complete hd (order := []) hcnt0 0 hne
    simp at this
  obtain ⟨v, tl, hvt⟩ : ∃ v tl, rs = v :: tl := by
    exact List.exists_cons_of_ne_nil hrne
  have hv : v < succ.length := hcnt0.lt v (by rw [hvt]; simp)
  have hat : At pred succ [] { q := v :: tl, counter := List.replicate succ.length 0, ready := ready0, v := v, j := 0 } 0 := by
    refine ⟨⟨tl, rfl⟩, ?_, by simp⟩
    rw [hvt] at hcnt0
    exact hcnt0
  obtain ⟨st, hst, hinv⟩ := Inv.of_advance (out := []) hd hat (Nat.zero_le _) ⟨rfl, by simp⟩
  have hstart : start pred succ succ.length ready0 = .ok st := by
    unfold start
    rw [hroots, res_bind_ok, hvt]
    dsimp only
    rw [vget_getD hv, res_bind_ok]
    exact hst
  -- the loop
  have hloop : ∃ out, Loop (round pred succ) (st, []) (.ok out) ∧ ∃ C, Final pred succ C ∧ Out pred C out := by
    refine Loop.of_rank (fun k s => Inv pred succ s ∧ k = (arcs succ).length - s.2.length) _ ?_ ⟨hinv, rfl⟩
    rintro k ⟨st, out⟩ ⟨hI, rfl⟩
    rcases hI with ⟨hq, hfin⟩ | ⟨done, w, hat, hq, hw, ho, hr⟩
    · left
      exact ⟨out, by unfold round; simp only at hq ⊢; rw [hq]; rfl, hfin⟩
    · right
      simp only at hat hq hw ho hr
      have hjl : st.j < (succ.getD st.v []).length := (List.getElem?_eq_some_iff.1 hw).1
      have ho' := ho.push st.v w st.ready (by rw [List.append_assoc, ← take_ed_succ hw]; exact hr)
      rw [List.append_assoc, ← take_ed_succ hw] at ho'
      have hat' : At pred succ done { st with j := st.j + 1 } (st.j + 1) := ⟨hat.head, hat.cnt, hat.early⟩
      obtain ⟨st', h1, h2⟩ := Inv.of_advance hd hat' hjl ho'
      have hgw : vget (succ.getD st.v []) st.j = .ok w := by unfold vget; rw [hw]
      refine ⟨_, _, ?_, ?_, h2, rfl⟩
      · unfold round
        have : st.q.isEmpty = false := by cases hq' : st.q with
          | nil => exact absurd hq' hq
          | cons _ _ => rfl
        simp only [this, Bool.false_eq_true, if_false]
        rw [vget_getD hat.lt, res_bind_ok, hgw, res_bind_ok, h1]; rfl
      · have hb := Inv.bound hat
        have hlen : (out ++ [(st.v, w, st.ready)]).length = (done.flatMap (ed succ) ++ (ed succ st.v).take (st.j + 1)).length := by
          rw [← ho'.1, List.length_map]
        rw [← hlen] at hb
        simp only [List.length_append, List.length_singleton] at hb ⊢
        omega
  obtain ⟨out, hl, C, hfin, hout⟩ := hloop
  refine ⟨st, out, hstart, hl, by rw [hout.1]; exact hfin.perm, ?_, ?_⟩
  · intro i j a b c r r' hi hj
    have hCi : C[i]? = some (a, b) := by rw [← hout.1, List.getElem?_map, hi]; rfl
    have hCj : C[j]? = some (b, c) := by rw [← hout.1, List.getElem?_map, hj]; rfl
    by_contra hc
    have h1 := hfin.topo j b c hCj
    have h2 : tc C b ≤ indeg pred b := by
      have hb : b < succ.length := by
        have : (a, b) ∈ arcs succ := hfin.perm.mem_iff.1 (List.mem_of_getElem? hCi)
        unfold arcs at this
        obtain ⟨u, -, hu⟩ := List.mem_flatMap.1 this
        obtain ⟨x, hx, e⟩ := List.mem_map.1 hu
        cases e
        exact hd.inRange _ _ hx
      rw [hfin.full b hb]
    rw [← h1] at h2
    conv at h2 => lhs; rw [← List.take_append_drop j C, tc_append]
    have h3 : 0 < tc (C.drop j) b := by
      unfold tc
      rw [List.count_pos_iff, List.mem_map]
      refine ⟨(a, b), List.mem_of_getElem? (i := i - j) ?_, rfl⟩
      rw [List.getElem?_drop, Nat.add_sub_cancel' (by omega)]
      exact hCi
    omega
  · intro i a b r hi
    have hCi : C[i]? = some (a, b) := by rw [← hout.1, List.getElem?_map, hi]; rfl
    have hb : b < succ.length := by
      have : (a, b) ∈ arcs succ := hfin.perm.mem_iff.1 (List.mem_of_getElem? hCi)
      unfold arcs at this
      obtain ⟨u, -, hu⟩ := List.mem_flatMap.1 this
      obtain ⟨x, hx, e⟩ := List.mem_map.1 hu
      cases e
      exact hd.inRange _ _ hx
    rw [hout.2 i a b r hi, decide_eq_true_eq, ← hfin.full b hb]
    conv_lhs => rhs; rw [← List.take_append_drop (i + 1) C, tc_append]
    have : (tc (C.take (i + 1)) b = tc (C.take (i + 1)) b + tc (C.drop (i + 1)) b) ↔ tc (C.drop (i + 1)) b = 0 := by omega
    rw [this]
    unfold tc
    rw [List.count_eq_zero]
    constructor
    · intro h j a' r' hij hj
      apply h
      rw [List.mem_map]
      refine ⟨(a', b), List.mem_of_getElem? (i := j - (i + 1)) ?_, rfl⟩
      rw [List.getElem?_drop, Nat.add_sub_cancel' (by omega), ← hout.1, List.getElem?_map, hj]; rfl
    · intro h hm
      obtain ⟨⟨a', b'⟩, hx, e⟩ := List.mem_map.1 hm
      cases e
      obtain ⟨j, hj⟩ := List.getElem?_of_mem hx
      rw [List.getElem?_drop, ← hout.1, List.getElem?_map] at hj
      cases ho : out[i + 1 + j]? with
      | none => rw [ho] at hj; cases hj
      | some e =>
        rw [ho] at hj
        cases hj
        exact h (i + 1 + j) _ e.2.2 (by omega) ho

/-- C61 fails for the empty graph (and for lists without a root): `begin()` takes the front of an empty queue. -/
theorem dag_range_no_root (pred succ : List (List Nat)) (n : Nat) (ready0 : Bool) (hn : pred.length = n) (h : ∀ i, i < n → pred.getD i [] ≠ []) :
    start pred succ n ready0 = .error .emptyContainer := by
  have : roots pred n = .ok [] := by
    unfold roots
    have : ∀ l : List Nat, (∀ i ∈ l, i < n) → l.foldlM (fun q i => do
        let p ← vget pred i
        return if p.length = 0 then q ++ [i] else q) [] = (.ok [] : Res (List Nat)) := by
      intro l
      induction l with
      | nil => intro _; rfl
      | cons x l ih =>
        intro hl
        have hx : x < n := hl x (by simp)
        rw [List.foldlM_cons, vget_getD (by omega)]
        simp only [res_bind_ok, pure, Except.pure] at ih ⊢
        rw [if_neg fun e => h x hx (List.length_eq_zero_iff.1 e)]
        exact ih fun i hi => hl i (by simp [hi])
    exact this _ fun i hi => List.mem_range.1 hi
  unfold start
  rw [this]
  rfl

/-- The empty graph is acyclic and consistent. -/
example : Dag [] [] ∧ start [] [] 0 false = .error .emptyContainer :=
  ⟨⟨rfl, by intro u w h; simp [Arc] at h, by simp, by
    intro v h
    obtain ⟨w, h1, -⟩ := Relation.TransGen.head'_iff.1 h
    simp [Arc] at h1⟩, dag_range_no_root _ _ _ _ rfl (by simp)⟩

/-- 0 → 1, 2; 1 → 3, 3; 2 → 3 with an isolated vertex 4. -/
def exPred : List (List Nat) := [[], [0], [0], [1, 2, 1], []]
def exSucc : List (List Nat) := [[1, 2], [3, 3], [3], [], []]

theorem exDag : Dag exPred exSucc := by
  have hlt : ∀ u w, Arc exSucc u w → u < w ∧ u < 5 := by
    intro u w h
    rcases u with _ | _ | _ | _ | _ | u <;> simp [Arc, exSucc] at h <;> omega
  refine ⟨rfl, ?_, ?_, ?_⟩
  · intro u w h
    have := hlt u w h
    rcases u with _ | _ | _ | _ | _ | u <;> simp [Arc, exSucc] at h ⊢ <;> omega
  · intro u w
    rcases w with _ | _ | _ | _ | _ | w <;> rcases u with _ | _ | _ | _ | _ | u <;> simp [exPred, exSucc]
  · have : ∀ u w, Relation.TransGen (Arc exSucc) u w → u < w := by
      intro u w h
      induction h with
      | single h => exact (hlt _ _ h).1
      | tail _ h ih => exact Nat.lt_trans ih (hlt _ _ h).1
    exact fun v h => absurd (this v v h) (by omega)

example : ∃ st, start exPred exSucc 5 false = .ok st ∧ Loop (round exPred exSucc) (st, [])
    (.ok [(0, 1, true), (0, 2, true), (1, 3, false), (1, 3, false), (2, 3, true)]) :=
  ⟨_, rfl, Loop.of_runFuel (n := 10) (by decide +kernel)⟩

end NW.DagRange
