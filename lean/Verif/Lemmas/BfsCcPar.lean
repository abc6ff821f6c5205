import Verif.Model.BfsCcPar
import Verif.Props.BfsCc

/-! # Lemmas about the parallel `compute_connected_components` -/

namespace NW.BfsCcPar
open Spec

variable {α : Type}

/-- Changing one entry changes the sum by the difference. -/
theorem sum_map_set {τ : Type} (w : τ → Nat) {ts : List τ} {i : Nat} {t t' : τ} (h : ts[i]? = some t) :
    ((ts.set i t').map w).sum + w t = (ts.map w).sum + w t' := by
  induction ts generalizing i with
  | nil => simp at h
  | cons x xs ih =>
    cases i with
    | zero =>
      simp at h; subst h
      simp; omega
    | succ i =>
      simp at h
      have := ih h
      simp only [List.set_cons_succ, List.map_cons, List.sum_cons]; omega

/-- The pairs that a search delivers begin in vertices. -/
theorem visits_src {g : Rows α} (hg : InRange g) {v : Nat} (hv : v < g.length) : ∃ es, BfsEdges.Visits3 g v (.ok es) ∧ ∀ e ∈ es, e.1 < g.length := by
  obtain ⟨es, h1, h2, h3⟩ := BfsEdges.bfs_edge_range3_correct g hg v hv
  refine ⟨es, h1, ?_⟩
  by_cases hw : ∃ w, Edge g v w ∧ w ≠ v
  · exact fun e he => ((h2 hw).edge e he).1.src_lt
  · have : es = [(v, v)] := h3 (fun w hw' => by
      by_contra hne
      exact hw ⟨w, hw', hne⟩)
    subst this
    simpa using hv

/-- The label of `i` is set. -/
def Got (N : Nat) (ids : List Nat) (i : Nat) : Prop := ∃ x, ids[i]? = some x ∧ x < N

/-- What holds for task `i`. -/
def POk (inf N : Nat) (ids : List Nat) (k i : Nat) : Pc → Prop
  | .test v => v = i
  | .bump v => v = i
  | .load v => v = i ∧ k ≠ inf
  | .store v c => v = i ∧ c < N ∧ k ≠ inf
  | .search v => v = i ∧ Got N ids i ∧ k ≠ inf
  | .next es => Got N ids i ∧ (∀ e ∈ es, e.1 < N) ∧ (es ≠ [] → k ≠ inf)
  | .put u c es => Got N ids i ∧ u < N ∧ c < N ∧ (∀ e ∈ es, e.1 < N) ∧ k ≠ inf

theorem POk.mono {inf N : Nat} {ids ids' : List Nat} {k k' i : Nat} {t : Pc} (h : POk inf N ids k i t) (h1 : ∀ j, Got N ids j → Got N ids' j)
    (h2 : k ≠ inf → k' ≠ inf) : POk inf N ids' k' i t := by
  cases t with
  | test v => exact h
  | bump v => exact h
  | load v => exact ⟨h.1, h2 h.2⟩
  | store v c => exact ⟨h.1, h.2.1, h2 h.2.2⟩
  | search v => exact ⟨h.1, h1 _ h.2.1, h2 h.2.2⟩
  | next es => exact ⟨h1 _ h.1, h.2.1, fun c => h2 (h.2.2 c)⟩
  | put u c es => exact ⟨h1 _ h.1, h.2.1, h.2.2.1, h.2.2.2.1, h2 h.2.2.2.2⟩

/-- Has the task still to raise the counter? -/
def early : Pc → Nat
  | .test _ => 1
  | .bump _ => 1
  | _ => 0

structure Inv (inf N : Nat) (s : State) : Prop where
  len : s.ids.length = N
  num : s.tasks.length = N
  val : ∀ x ∈ s.ids, x = inf ∨ x < N
  cnt : s.counter = inf ∨ s.counter + 1 + (s.tasks.map early).sum ≤ N
  tsk : ∀ (i : Nat) (t : Pc), s.tasks[i]? = some t → POk inf N s.ids s.counter i t

theorem sum_early_le (ts : List Pc) : (ts.map early).sum ≤ ts.length := by
  induction ts with
  | nil => simp
  | cons t ts ih =>
    have : early t ≤ 1 := by cases t <;> simp [early]
    simp; omega

/-- Steps left before the pairs are known. -/
def phase : Pc → Nat
  | .test _ => 5
  | .bump _ => 4
  | .load _ => 3
  | .store _ _ => 2
  | .search _ => 1
  | .next _ => 0
  | .put _ _ _ => 0

/-- Steps left when the pairs are known. -/
def work : Pc → Nat
  | .next es => 2 * es.length
  | .put _ _ es => 2 * es.length + 1
  | _ => 0

theorem got_set {N : Nat} {ids : List Nat} {u c : Nat} (hc : c < N) (j : Nat) (h : Got N ids j) : Got N (ids.set u c) j := by
  obtain ⟨x, h1, h2⟩ := h
  have hj := (List.getElem?_eq_some_iff.1 h1).1
  unfold Got
  rw [List.getElem?_set]
  by_cases e : u = j
  · subst e
    exact ⟨c, by rw [if_pos rfl, if_pos hj], hc⟩
  · exact ⟨x, by rw [if_neg e]; exact h1, h2⟩

theorem got_self {N : Nat} {ids : List Nat} {u c : Nat} (hu : u < ids.length) (hc : c < N) : Got N (ids.set u c) u :=
  ⟨c, by rw [List.getElem?_set, if_pos rfl, if_pos hu], hc⟩

/-- Every step of a task leaves things in order. -/
theorem task_ok {inf : Nat} {g : Rows α} (hg : InRange g) (hinf : g.length ≤ inf) {s : State} (h : Inv inf g.length s) {i : Nat} {t : Pc} (hi : s.tasks[i]? = some t)
    {o : Res (List Nat × Nat × Pc)} (ho : TaskStep inf g s.ids s.counter t o) :
    ∃ ids k t', o = .ok (ids, k, t') ∧ Inv inf g.length ⟨ids, k, s.tasks.set i t'⟩ ∧ (phase t' < phase t ∨ phase t' = phase t ∧ work t' < work t) := by
  have hp := h.tsk i t hi
  have hlt : i < g.length := by rw [← h.num]; exact (List.getElem?_eq_some_iff.1 hi).1
  have hsame : ∀ t', early t' ≤ early t → POk inf g.length s.ids s.counter i t' → Inv inf g.length ⟨s.ids, s.counter, s.tasks.set i t'⟩ := by
    intro t' he ht'
    refine ⟨h.len, by simpa using h.num, h.val, ?_, ?_⟩
    · have := sum_map_set early (t' := t') hi
      rcases h.cnt with c | c
      · exact .inl c
      · right; dsimp only; omega
    · intro j t'' hj
      rcases getElem?_set_cases hj with ⟨rfl, rfl⟩ | ⟨-, hj⟩
      · exact ht'
      · exact h.tsk j t'' hj
  have hset : ∀ (u c : Nat) (t' : Pc), u < g.length → c < g.length → early t' ≤ early t → POk inf g.length (s.ids.set u c) s.counter i t' →
      Inv inf g.length ⟨s.ids.set u c, s.counter, s.tasks.set i t'⟩ := by
    intro u c t' hu hc he ht'
    refine ⟨by simpa using h.len, by simpa using h.num, ?_, ?_, ?_⟩
    · intro x hx
      rcases List.mem_or_eq_of_mem_set hx with hx | rfl
      · exact h.val x hx
      · exact .inr hc
    · have := sum_map_set early (t' := t') hi
      rcases h.cnt with c | c
      · exact .inl c
      · right; dsimp only; omega
    · intro j t'' hj
      rcases getElem?_set_cases hj with ⟨rfl, rfl⟩ | ⟨-, hj⟩
      · exact ht'
      · exact (h.tsk j t'' hj).mono (got_set hc) id
  have hkv : s.counter ≠ inf → s.counter < g.length := by
    intro hk
    rcases h.cnt with c | c
    · exact absurd c hk
    · omega
  have hl := h.len
  cases ho with
  | @test v =>
    have hv : v = i := hp
    subst hv
    have hv : v < s.ids.length := by omega
    rw [vget_of_lt hv, res_bind_ok]
    by_cases c : s.ids[v] = inf
    · rw [if_pos c]
      exact ⟨_, _, _, rfl, hsame _ (by simp [early]) rfl, .inl (by simp [phase])⟩
    · rw [if_neg c]
      refine ⟨_, _, _, rfl, hsame _ (by simp [early]) ⟨⟨s.ids[v], List.getElem?_eq_getElem hv, ?_⟩, by simp, by simp⟩, .inl (by simp [phase])⟩
      rcases h.val _ (List.getElem_mem hv) with d | d
      · exact absurd d c
      · exact d
  | @bump v =>
    have hv : v = i := hp
    subst hv
    have hs := sum_map_set early (t' := .load v) hi
    have hn := h.num
    have hle := sum_early_le s.tasks
    simp only [early] at hs
    have hk : (s.counter + 1) % (inf + 1) + 1 + ((s.tasks.set v (.load v)).map early).sum ≤ g.length := by
      rcases h.cnt with c | c
      · rw [c, Nat.mod_self]; omega
      · rw [Nat.mod_eq_of_lt (by omega)]; omega
    have hne : (s.counter + 1) % (inf + 1) ≠ inf := by omega
    refine ⟨_, _, _, rfl, ⟨h.len, by simpa using h.num, h.val, .inr hk, ?_⟩, .inl (by simp [phase])⟩
    intro j t'' hj
    rcases getElem?_set_cases hj with ⟨rfl, rfl⟩ | ⟨-, hj⟩
    · exact ⟨rfl, hne⟩
    · exact (h.tsk j t'' hj).mono (fun _ k => k) (fun _ => hne)
  | load => exact ⟨_, _, _, rfl, hsame _ (by simp [early]) ⟨hp.1, hkv hp.2, hp.2⟩, .inl (by simp [phase])⟩
  | @store v c =>
    obtain ⟨rfl, hc, hk⟩ := hp
    have hv : v < s.ids.length := by omega
    rw [vset_of_lt hv, res_bind_ok]
    exact ⟨_, _, _, rfl, hset v c _ hlt hc (by simp [early]) ⟨rfl, got_self hv hc, hk⟩, .inl (by simp [phase])⟩
  | @search v r hr =>
    obtain ⟨rfl, hgot, hk⟩ := hp
    obtain ⟨es, he, hes⟩ := visits_src hg hlt
    have := BfsCc.visits3_det hr he
    subst this
    exact ⟨_, _, _, rfl, hsame _ (by simp [early]) ⟨hgot, hes, fun _ => hk⟩, .inl (by simp [phase])⟩
  | @next e es =>
    obtain ⟨hgot, hes, hk⟩ := hp
    refine ⟨_, _, _, rfl, hsame _ (by simp [early]) ⟨hgot, hes e (by simp), hkv (hk (by simp)), fun e' he' => hes e' (by simp [he']), hk (by simp)⟩, .inr ⟨rfl, ?_⟩⟩
    simp [work]; omega
  | @put u c es =>
    obtain ⟨hgot, hu, hc, hes, hk⟩ := hp
    rw [vset_of_lt (by omega), res_bind_ok]
    refine ⟨_, _, _, rfl, hset u c _ hu hc (by simp [early]) ⟨got_set hc _ hgot, hes, fun _ => hk⟩, .inr ⟨rfl, ?_⟩⟩
    simp [work]

theorem start_inv (inf : Nat) (g : Rows α) : Inv inf g.length (start inf g (List.replicate g.length inf)) := by
  refine ⟨by simp [start], by simp [start], ?_, .inl rfl, ?_⟩
  · intro x hx
    exact .inl (List.eq_of_mem_replicate hx)
  · intro i t hi
    simp only [start, List.getElem?_map] at hi
    rw [Option.map_eq_some_iff] at hi
    obtain ⟨v, h1, rfl⟩ := hi
    have hlt := (List.getElem?_eq_some_iff.1 h1).1
    rw [List.getElem?_range (by simpa using hlt)] at h1
    exact (Option.some.inj h1).symm

/-- A task that is not over can take a step. -/
theorem task_go {inf : Nat} {g : Rows α} (hg : InRange g) {s : State} (h : Inv inf g.length s) {i : Nat} {t : Pc} (hi : s.tasks[i]? = some t) (ht : t ≠ .next []) :
    ∃ o, TaskStep inf g s.ids s.counter t o := by
  cases t with
  | test v => exact ⟨_, .test⟩
  | bump v => exact ⟨_, .bump⟩
  | load v => exact ⟨_, .load⟩
  | store v c => exact ⟨_, .store⟩
  | search v =>
    have hv : v < g.length := by
      rw [(h.tsk i _ hi).1, ← h.num]
      exact (List.getElem?_eq_some_iff.1 hi).1
    obtain ⟨es, he, -⟩ := visits_src hg hv
    exact ⟨_, .search he⟩
  | next es =>
    cases es with
    | nil => exact absurd rfl ht
    | cons e es => exact ⟨_, .next⟩
  | put u c es => exact ⟨_, .put⟩

/-! ## Building runs -/

theorem Runs.of_steps {σ ρ : Type} {step : σ → Res (σ ⊕ ρ) → Prop} {s s' : σ} {o : Res ρ} (h : Steps step s s') (hr : Runs step s' o) : Runs step s o := by
  induction h with
  | refl => exact hr
  | tail _ hst ih => exact ih (.step hst hr)

/-- A step of one task is a step of the loop. -/
theorem steps_one {inf : Nat} {g : Rows α} {ids ids' : List Nat} {k k' : Nat} {ts : List Pc} {i : Nat} {t t' : Pc} (hi : ts[i]? = some t)
    (h : TaskStep inf g ids k t (.ok (ids', k', t'))) : Steps (Step inf g) ⟨ids, k, ts⟩ ⟨ids', k', ts.set i t'⟩ :=
  .tail (.refl _) (Step.task (s := ⟨ids, k, ts⟩) hi h)

/-- The writes of the pairs `es` one after the other, while the counter stays as it is. -/
theorem steps_label {inf : Nat} {g : Rows α} {k : Nat} (es : List (Nat × Nat)) :
    ∀ {ids ids' : List Nat} {ts : List Pc} {i : Nat}, ts[i]? = some (.next es) → BfsCc.label k es ids = .ok ids' →
      Steps (Step inf g) ⟨ids, k, ts⟩ ⟨ids', k, ts.set i (.next [])⟩ := by
  induction es with
  | nil =>
    intro ids ids' ts i hi h
    cases h
    have : ts.set i (.next []) = ts := by
      apply List.ext_getElem?
      intro j
      by_cases e : i = j
      · subst e; rw [getElem?_set_same hi, hi]
      · rw [getElem?_set_other e]
    rw [this]
    exact .refl _
  | cons e es ih =>
    intro ids ids' ts i hi h
    rw [BfsCc.label] at h
    cases hv : vset ids e.1 k with
    | error f => rw [hv] at h; cases h
    | ok ids1 =>
      rw [hv] at h
      have h1 := steps_one (inf := inf) (g := g) hi (TaskStep.next (inf := inf) (g := g) (ids := ids) (k := k))
      have h2 := steps_one (inf := inf) (g := g) (t := .put e.1 k es) (t' := .next es) (ids := ids) (ids' := ids1) (k := k) (k' := k) (getElem?_set_same hi)
        (by have := TaskStep.put (inf := inf) (g := g) (ids := ids) (k := k) (u := e.1) (c := k) (es := es); rw [hv] at this; exact this)
      have h3 := ih (ids := ids1) (ids' := ids') (ts := (ts.set i (.put e.1 k es)).set i (.next es)) (getElem?_set_same (getElem?_set_same hi)) h
      rw [List.set_set] at h2 h3
      rw [List.set_set] at h3
      exact (h1.trans h2).trans h3

/-- A task from its store to its end, while the counter stays as it is. -/
theorem steps_store {inf : Nat} {g : Rows α} {k v : Nat} {es : List (Nat × Nat)} (hes : BfsEdges.Visits3 g v (.ok es)) {ids ids' : List Nat} {ts : List Pc} {i : Nat}
    (hi : ts[i]? = some (.store v k)) (h : (vset ids v k >>= BfsCc.label k es) = .ok ids') :
    Steps (Step inf g) ⟨ids, k, ts⟩ ⟨ids', k, ts.set i (.next [])⟩ := by
  cases hv : vset ids v k with
  | error f => rw [hv] at h; cases h
  | ok ids1 =>
    rw [hv] at h
    have h1 := steps_one (inf := inf) (g := g) (t := .store v k) (t' := .search v) (ids := ids) (ids' := ids1) (k := k) (k' := k) hi
      (by have := TaskStep.store (inf := inf) (g := g) (ids := ids) (k := k) (v := v) (c := k); rw [hv] at this; exact this)
    have h2 := steps_one (inf := inf) (g := g) (t := .search v) (t' := .next es) (ids := ids1) (ids' := ids1) (k := k) (k' := k) (getElem?_set_same hi) (TaskStep.search hes)
    have h3 := steps_label (inf := inf) (g := g) (k := k) es (ids := ids1) (ids' := ids') (ts := (ts.set i (.search v)).set i (.next es)) (getElem?_set_same (getElem?_set_same hi)) h
    rw [List.set_set] at h2 h3
    rw [List.set_set] at h3
    exact (h1.trans h2).trans h3

/-- Every task goes from `B` to `A`, one after the other. -/
theorem steps_phase {inf : Nat} {g : Rows α} {N : Nat} (P : Nat → List Nat → Nat → Prop) (A B : Nat → Pc)
    (h : ∀ m ids k, m < N → P m ids k → ∀ ts : List Pc, ts.length = N → ts[m]? = some (B m) →
      ∃ ids' k', P (m + 1) ids' k' ∧ Steps (Step inf g) ⟨ids, k, ts⟩ ⟨ids', k', ts.set m (A m)⟩)
    {ids : List Nat} {k : Nat} (h0 : P 0 ids k) :
    ∃ ids' k', P N ids' k' ∧ Steps (Step inf g) ⟨ids, k, (List.range N).map B⟩ ⟨ids', k', (List.range N).map A⟩ := by
  have key : ∀ m, m ≤ N → ∃ ids' k', P m ids' k' ∧
      Steps (Step inf g) ⟨ids, k, (List.range N).map B⟩ ⟨ids', k', (List.range N).map (fun v => if v < m then A v else B v)⟩ := by
    intro m
    induction m with
    | zero => intro _; exact ⟨ids, k, h0, by simpa using Steps.refl _⟩
    | succ m ih =>
      intro hm
      obtain ⟨ids1, k1, h1, h2⟩ := ih (by omega)
      obtain ⟨ids2, k2, h3, h4⟩ := h m ids1 k1 (by omega) h1 ((List.range N).map (fun v => if v < m then A v else B v)) (by simp)
        (by rw [List.getElem?_map, List.getElem?_range (by omega)]; simp)
      refine ⟨ids2, k2, h3, ?_⟩
      have : ((List.range N).map (fun v => if v < m then A v else B v)).set m (A m) = (List.range N).map (fun v => if v < m + 1 then A v else B v) := by
        apply List.ext_getElem?
        intro j
        rw [List.getElem?_set]
        by_cases hj : j < N
        · by_cases e : m = j
          · subst e
            simp [hj]
          · have : (j < m + 1) = (j < m) := by apply propext; omega
            simp [e, List.getElem?_range hj, this]
        · have : m ≠ j := by omega
          simp [this, hj]
      rw [this] at h4
      exact h2.trans h4
  obtain ⟨ids', k', h1, h2⟩ := key N (Nat.le_refl _)
  refine ⟨ids', k', h1, ?_⟩
  have : (List.range N).map (fun v => if v < N then A v else B v) = (List.range N).map A := by
    apply List.map_congr_left
    intro v hv
    rw [if_pos (by simpa using hv)]
  rw [this] at h2
  exact h2

end NW.BfsCcPar
