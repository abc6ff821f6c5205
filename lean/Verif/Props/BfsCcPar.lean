import Verif.Lemmas.BfsCcPar

/-! # Property C143: the experimental `compute_connected_components` run in parallel -/

namespace NW.BfsCcPar
open Spec

variable {α : Type}

/-- C143, the part that holds.  On every graph with in-range neighbours, starting with all labels unset, the parallel loop ends without a fault under every schedule,
and every vertex has a label that is less than the number of vertices. -/
theorem parallel_ends_partial (g : Rows α) (hg : InRange g) (inf : Nat) (hinf : g.length ≤ inf) :
    Sure (Step inf g) (fun ids => ids.length = g.length ∧ ∀ l ∈ ids, l < g.length) (start inf g (List.replicate g.length inf)) := by
  refine Sure.of_inv (Prod.lex Nat.lt_wfRel Nat.lt_wfRel).wf (fun s : State => ((s.tasks.map phase).sum, (s.tasks.map work).sum)) (Inv inf g.length) ?_ ?_ _ (start_inv inf g)
  · intro s hs
    by_cases c : ∀ t ∈ s.tasks, t = .next []
    · exact ⟨_, .over c⟩
    · push Not at c
      obtain ⟨t, ht, hne⟩ := c
      obtain ⟨i, hi⟩ := List.mem_iff_getElem?.1 ht
      obtain ⟨o, ho⟩ := task_go hg hs hi hne
      exact ⟨_, .task hi ho⟩
  · intro s o hs ho
    cases ho with
    | @task i t o hi ht =>
      obtain ⟨ids, k, t', rfl, h1, h2⟩ := task_ok hg hinf hs hi ht
      refine .inl ⟨_, rfl, h1, ?_⟩
      have e1 := sum_map_set phase (t' := t') hi
      have e2 := sum_map_set work (t' := t') hi
      rcases h2 with h2 | ⟨h2, h3⟩
      · refine Prod.Lex.left _ _ (show ((s.tasks.set i t').map phase).sum < _ from ?_)
        omega
      · have : ((s.tasks.set i t').map phase).sum = (s.tasks.map phase).sum := by omega
        dsimp only
        rw [this]
        refine Prod.Lex.right _ (show ((s.tasks.set i t').map work).sum < _ from ?_)
        omega
    | over h =>
      refine .inr ⟨_, rfl, hs.len, fun l hl => ?_⟩
      obtain ⟨i, hi⟩ := List.mem_iff_getElem?.1 hl
      have hlt : i < s.tasks.length := by rw [hs.num, ← hs.len]; exact (List.getElem?_eq_some_iff.1 hi).1
      have ht := List.getElem?_eq_getElem hlt
      have hp := hs.tsk i _ ht
      rw [h _ (List.getElem_mem hlt)] at hp
      obtain ⟨⟨x, h1, h2⟩, -⟩ := hp
      rw [hi] at h1
      cases h1
      exact h2

/-- The loop run in order, the subject of C88, is one of the schedules. -/
theorem in_order_runs (g : Rows α) (inf : Nat) (hinf : g.length ≤ inf) (ids : List Nat) (h : BfsCc.Cc inf g (List.replicate g.length inf) (.ok ids)) :
    Runs (Step inf g) (start inf g (List.replicate g.length inf)) (.ok ids) := by
  have key : ∀ (vs ids : List Nat) (c : Nat) (o : Res (List Nat)), BfsCc.Go inf g vs ids c o → ∀ ids', o = .ok ids' → ∀ (k : Nat) (ts : List Pc),
      (∀ t ∈ ts, t = .next []) → c + vs.length ≤ inf → (k = inf ∧ c = 0 ∨ k + 1 = c) → Runs (Step inf g) ⟨ids, k, ts ++ vs.map .test⟩ (.ok ids') := by
    intro vs ids c o h
    have at_ : ∀ (ts : List Pc) (x : Pc) (r : List Pc), (ts ++ x :: r)[ts.length]? = some x := fun ts x r => by simp
    have set_ : ∀ (ts : List Pc) (x y : Pc) (r : List Pc), (ts ++ x :: r).set ts.length y = ts ++ y :: r := fun ts x y r => by simp
    induction h with
    | nil =>
      rintro ids' ⟨⟩ k ts ht - -
      exact .done (.over (by simpa using ht))
    | oob => rintro _ ⟨⟩
    | fault => rintro _ ⟨⟩
    | bad => rintro _ ⟨⟩
    | @skip v x vs ids c o hx hne _ ih =>
      intro ids' ho k ts ht hc hk
      have h1 := steps_one (inf := inf) (g := g) (ids := ids) (ids' := ids) (k := k) (k' := k) (t' := .next []) (at_ ts (.test v) (vs.map .test))
        (by have := TaskStep.test (inf := inf) (g := g) (ids := ids) (k := k) (v := v); rw [hx, res_bind_ok, if_neg hne] at this; exact this)
      rw [set_] at h1
      refine Runs.of_steps h1 ?_
      have := ih ids' ho k (ts ++ [.next []]) (by simpa [or_imp, forall_and] using ht) (by simp at hc; omega) hk
      simpa using this
    | @search v vs ids ids1 c es o hx hes hl _ ih =>
      intro ids' ho k ts ht hc hk
      simp at hc
      have hck : (k + 1) % (inf + 1) = c := by
        rcases hk with ⟨rfl, rfl⟩ | hk
        · exact Nat.mod_self _
        · rw [Nat.mod_eq_of_lt (by omega)]; exact hk
      have h1 := steps_one (inf := inf) (g := g) (ids := ids) (ids' := ids) (k := k) (k' := k) (t' := .bump v) (at_ ts (.test v) (vs.map .test))
        (by have := TaskStep.test (inf := inf) (g := g) (ids := ids) (k := k) (v := v); rw [hx, res_bind_ok, if_pos rfl] at this; exact this)
      have h2 := steps_one (inf := inf) (g := g) (ids := ids) (ids' := ids) (k := k) (k' := c) (t' := .load v) (at_ ts (.bump v) (vs.map .test))
        (by have := TaskStep.bump (inf := inf) (g := g) (ids := ids) (k := k) (v := v); rw [hck] at this; exact this)
      have h3 := steps_one (inf := inf) (g := g) (ids := ids) (ids' := ids) (k := c) (k' := c) (t' := .store v c) (at_ ts (.load v) (vs.map .test)) .load
      have h4 := steps_store (inf := inf) hes (at_ ts (.store v c) (vs.map .test)) hl
      rw [set_] at h1 h2 h3 h4
      refine Runs.of_steps (((h1.trans h2).trans h3).trans h4) ?_
      have := ih ids' ho c (ts ++ [.next []]) (by simpa [or_imp, forall_and] using ht) (by omega) (.inr rfl)
      simpa using this
  have := key _ _ _ _ h ids rfl inf [] (by simp) (by simpa using hinf) (.inl ⟨rfl, rfl⟩)
  simpa [start] using this

/-- What the labels are while the tasks store `c`. -/
def Filled (inf N c m : Nat) (ids : List Nat) : Prop := ids.length = N ∧ ∀ (v x : Nat), ids[v]? = some x → x = c ∨ x = inf ∧ m ≤ v

theorem Filled.set {inf N c m : Nat} {ids : List Nat} (h : Filled inf N c m ids) (u : Nat) : Filled inf N c m (ids.set u c) := by
  refine ⟨by simpa using h.1, fun v x hv => ?_⟩
  rcases getElem?_set_cases hv with ⟨-, rfl⟩ | ⟨-, hv⟩
  · exact .inl rfl
  · exact h.2 v x hv

theorem Filled.label {inf N c m : Nat} (es : List (Nat × Nat)) : ∀ {ids : List Nat}, Filled inf N c m ids → (∀ e ∈ es, e.1 < N) →
    ∃ ids', BfsCc.label c es ids = .ok ids' ∧ Filled inf N c m ids' := by
  induction es with
  | nil => intro ids h _; exact ⟨ids, rfl, h⟩
  | cons e es ih =>
    intro ids h he
    obtain ⟨ids', h1, h2⟩ := ih (h.set e.1) (fun e' he' => he e' (by simp [he']))
    exact ⟨ids', by rw [BfsCc.label, vset_of_lt (by rw [h.1]; exact he e (by simp))]; exact h1, h2⟩

/-- C143 is false.  On every graph, there is a schedule under which all vertices get the same label, whatever the components are: every task raises the counter
before the first one reads it. -/
theorem parallel_one_label (g : Rows α) (hg : InRange g) (inf : Nat) (hinf : g.length ≤ inf) :
    Runs (Step inf g) (start inf g (List.replicate g.length inf)) (.ok (List.replicate g.length (g.length - 1))) := by
  generalize hN : g.length = N at hinf
  obtain ⟨ids1, k1, ⟨rfl, rfl⟩, s1⟩ := steps_phase (inf := inf) (g := g) (N := N) (fun _ ids k => ids = List.replicate N inf ∧ inf = k) .bump .test
    (fun m ids k hm hP ts _ ht => by
      obtain ⟨rfl, rfl⟩ := hP
      refine ⟨_, _, ⟨rfl, rfl⟩, steps_one ht ?_⟩
      have := TaskStep.test (inf := inf) (g := g) (ids := List.replicate N inf) (k := inf) (v := m)
      rw [vget_of_lt (by simpa using hm), res_bind_ok, if_pos (by simp)] at this
      exact this) (ids := List.replicate N inf) (k := inf) ⟨rfl, rfl⟩
  obtain ⟨ids2, k2, ⟨rfl, hk2⟩, s2⟩ := steps_phase (inf := inf) (g := g) (N := N) (fun m ids k => ids = List.replicate N inf ∧ k = if m = 0 then inf else m - 1) .load .bump
    (fun m ids k hm hP ts _ ht => by
      obtain ⟨rfl, hk⟩ := hP
      refine ⟨_, _, ⟨rfl, ?_⟩, steps_one ht .bump⟩
      rw [if_neg (by omega)]
      by_cases c : m = 0
      · rw [hk, if_pos c, Nat.mod_self]; omega
      · rw [hk, if_neg c, Nat.mod_eq_of_lt (by omega)]; omega) (ids := List.replicate N inf) (k := inf) ⟨rfl, by simp⟩
  obtain ⟨ids3, k3, ⟨rfl, rfl⟩, s3⟩ := steps_phase (inf := inf) (g := g) (N := N) (fun _ ids k => ids = List.replicate N inf ∧ k2 = k) (fun v => .store v k2) .load
    (fun m ids k hm hP ts _ ht => by
      obtain ⟨rfl, rfl⟩ := hP
      exact ⟨_, _, ⟨rfl, rfl⟩, steps_one ht .load⟩) (ids := List.replicate N inf) (k := k2) ⟨rfl, rfl⟩
  obtain ⟨ids4, k4, ⟨hF, rfl⟩, s4⟩ := steps_phase (inf := inf) (g := g) (N := N) (fun m ids k => Filled inf N k2 m ids ∧ k2 = k) (fun _ => .next []) (fun v => .store v k2)
    (fun m ids k hm hP ts _ ht => by
      obtain ⟨hF, rfl⟩ := hP
      have hml : m < ids.length := by rw [hF.1]; exact hm
      obtain ⟨es, h1, h2⟩ := visits_src hg (v := m) (by omega)
      rw [hN] at h2
      have hF' : Filled inf N k2 (m + 1) (ids.set m k2) := by
        refine ⟨by simpa using hF.1, fun v x hv => ?_⟩
        rcases getElem?_set_cases hv with ⟨-, rfl⟩ | ⟨hne, hv⟩
        · exact .inl rfl
        · rcases hF.2 v x hv with c | ⟨c, d⟩
          · exact .inl c
          · exact .inr ⟨c, by omega⟩
      obtain ⟨ids', h3, h4⟩ := hF'.label es h2
      exact ⟨ids', k2, ⟨h4, rfl⟩, steps_store h1 ht (by rw [vset_of_lt hml]; exact h3)⟩) (ids := List.replicate N inf) (k := k2)
    ⟨⟨by simp, fun v x hv => .inr ⟨List.eq_of_mem_replicate (List.mem_of_getElem? hv), by omega⟩⟩, rfl⟩
  have hids : ids4 = List.replicate N (N - 1) := by
    refine List.eq_replicate_iff.2 ⟨hF.1, fun x hx => ?_⟩
    obtain ⟨v, hv⟩ := List.mem_iff_getElem?.1 hx
    have hvl : v < N := by rw [← hF.1]; exact (List.getElem?_eq_some_iff.1 hv).1
    rw [if_neg (by omega)] at hk2
    rcases hF.2 v x hv with c | ⟨-, c⟩
    · rw [c, hk2]
    · omega
  subst hids
  unfold start
  rw [hN]
  exact Runs.of_steps (((s1.trans s2).trans s3).trans s4) (.done (.over (by simp)))

/-- So equal labels do not mean connection: for any two vertices of any graph there is a schedule that gives them the same label. -/
theorem parallel_wrong (g : Rows α) (hg : InRange g) (inf : Nat) (hinf : g.length ≤ inf) (u v : Nat) (hu : u < g.length) (hv : v < g.length) (hn : ¬ Conn (Edge g) u v) :
    ∃ ids l, Runs (Step inf g) (start inf g (List.replicate g.length inf)) (.ok ids) ∧ ids[u]? = some l ∧ ids[v]? = some l ∧ ¬ Conn (Edge g) u v :=
  ⟨_, g.length - 1, parallel_one_label g hg inf hinf, by simp [hu], by simp [hv], hn⟩

/-- Two components of two vertices each. -/
def exTwo : Rows Unit := [[(1, ())], [(0, ())], [(3, ())], [(2, ())]]

/-- A case of the theorems: the components of 0 and 2 are different, in order they get different labels, and in parallel there is a run in which they get the same. -/
example : InRange exTwo ∧ exTwo.length ≤ 255 ∧ ¬ Conn (Edge exTwo) 0 2 ∧ BfsCc.Cc 255 exTwo (List.replicate exTwo.length 255) (.ok [0, 1, 2, 3]) ∧
    Runs (Step 255 exTwo) (start 255 exTwo [255, 255, 255, 255]) (.ok [3, 3, 3, 3]) := by
  refine ⟨by decide, by decide, ?_, ?_, parallel_one_label exTwo (by decide) 255 (by decide)⟩
  · intro h
    have key : ∀ a b, Conn (Edge exTwo) a b → (a < 2 ↔ b < 2) := by
      intro a b hab
      have hE : ∀ x y, Edge exTwo x y → (x < 2 ↔ y < 2) := by
        intro x y h
        have hx := h.src_lt
        have : ∀ x < 4, ∀ y ∈ nbrs exTwo x, (x < 2 ↔ y < 2) := by decide
        exact this x hx y h
      induction hab with
      | refl => exact Iff.rfl
      | fwd _ e ih => exact ih.trans (hE _ _ e)
      | bwd _ e ih => exact ih.trans (hE _ _ e).symm
    have := key 0 2 h
    omega
  · exact .search (v := 0) (vs := [1, 2, 3]) (ids' := [0, 255, 255, 255]) rfl (Iter.visits_of_runFuel (n := 9) (by rfl)) rfl
      (.search (v := 1) (vs := [2, 3]) (ids' := [0, 1, 255, 255]) rfl (Iter.visits_of_runFuel (n := 9) (by rfl)) rfl
        (.search (v := 2) (vs := [3]) (ids' := [0, 1, 2, 255]) rfl (Iter.visits_of_runFuel (n := 9) (by rfl)) rfl
          (.search (v := 3) (vs := []) (ids' := [0, 1, 2, 3]) rfl (Iter.visits_of_runFuel (n := 9) (by rfl)) rfl .nil)))

end NW.BfsCcPar
