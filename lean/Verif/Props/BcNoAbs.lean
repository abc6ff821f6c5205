import Verif.Lemmas.BcNoAbsBack
import Verif.Props.BcAsync
import Verif.Props.BcExp

/-!
# C108: approx_betweenness_worklist_noabstraction

The version with buckets of edges.  It always reads past the end of the buckets; if that is harmless it computes the betweenness for one source, and not for more than one.
-/

namespace NW.BcNoAbs
open Spec Fifo
open NW.Brandes (Vec)
open NW.BcWork (Node simple_inRange simple_length)
open NW.BcAsync (Found found nodeAt gives_runs)
open NW.BcExp (Fits Result exact betweenness_eq)

variable {α : Type}

/-! ## The read past the end -/

theorem skip_strict {bs : Buckets} {t t' : Nat} (h : skip false bs t = .ok t') : t' < t + bs.length := by
  induction bs generalizing t with
  | nil => cases h
  | cons b bs ih =>
    unfold skip at h
    split at h
    · have := ih h
      simp; omega
    · cases h; simp

theorem round_strict {M inf dl : Nat} {g : Rows α} {st st' : St} {cur : List (Nat × Nat)} (h : round false M inf dl g st cur = .ok st') : st'.top < st'.bs.length := by
  unfold round at h
  cases e1 : vset st.bs st.top [] with
  | error f => rw [e1, res_bind_error] at h; cases h
  | ok bs =>
    rw [e1, res_bind_ok] at h
    cases e2 : cur.foldlM (treat M inf dl g) (st.vs, bs) with
    | error f => rw [e2, res_bind_error] at h; cases h
    | ok r =>
      rw [e2, res_bind_ok] at h
      cases e3 : skip false (r.2.drop st.top) st.top with
      | error f => rw [e3, res_bind_error] at h; cases h
      | ok t =>
        rw [e3, res_bind_ok] at h
        cases h
        have := skip_strict e3
        show t < r.2.length
        rw [List.length_drop] at this
        by_cases c : st.top ≤ r.2.length
        · omega
        · rw [List.drop_eq_nil_of_le (by omega)] at e3; cases e3

theorem search_no_result {M inf dl : Nat} {g : Rows α} {threads thresh : Nat} {st : St} (h : st.top < st.bs.length) (r : St) : ¬ Runs (Round false M inf dl g threads thresh) st (.ok r) := by
  intro hr
  generalize ho : (Except.ok r : Res St) = o at hr
  have hnext : ∀ (st : St) (o : Res (St ⊕ St)), st.top < st.bs.length → Round false M inf dl g threads thresh st o → ∃ cur, o = (round false M inf dl g st cur).map .inl := by
    intro st o h hs
    unfold Round at hs
    rw [List.getElem?_eq_getElem h] at hs
    simp only at hs
    split at hs
    · obtain ⟨-, cur, -, rfl⟩ := hs; exact ⟨cur, rfl⟩
    · exact ⟨_, hs⟩
  induction hr with
  | done hs =>
    obtain ⟨cur, e⟩ := hnext _ _ h hs
    cases hx : round false M inf dl g _ cur <;> rw [hx] at e <;> cases e
  | fault hs => cases ho
  | step hs _ ih =>
    obtain ⟨cur, e⟩ := hnext _ _ h hs
    cases hx : round false M inf dl g _ cur with
    | error f => rw [hx] at e; cases e
    | ok st' =>
      rw [hx] at e
      cases e
      exact ih (round_strict hx) ho

theorem firstBuckets_length {g : Rows α} {num s : Nat} {bs : Buckets} (h : firstBuckets g num s = .ok bs) : bs.length = num := by
  unfold firstBuckets at h
  cases e : vget g s with
  | error f => rw [e, res_bind_error] at h; cases h
  | ok row =>
    rw [e, res_bind_ok] at h
    have key : ∀ (row : List (Nat × α)) (bs bs' : Buckets), row.foldlM (fun bs a => do
        let b ← vget bs 0
        vset bs 0 (b ++ [(s, a.1)])) bs = (.ok bs' : Res Buckets) → bs'.length = bs.length := by
      intro row
      induction row with
      | nil => intro bs bs' h; cases h; rfl
      | cons a row ih =>
        intro bs bs' h
        rw [List.foldlM_cons] at h
        by_cases c : 0 < bs.length
        · rw [vget_of_lt c, res_bind_ok, vset_of_lt c, res_bind_ok] at h
          have := ih _ _ h
          rw [List.length_set] at this; exact this
        · rw [vget_of_ge (by omega)] at h; cases h
    have := key row _ bs h
    rw [List.length_replicate] at this; exact this

theorem source_no_result {M inf dl : Nat} {g : Rows α} {threads thresh : Nat} {k : Kept} (hk : 0 < k.num) {s : Nat} (r : Kept) : ¬ source false M inf dl g threads thresh k s (.ok r) := by
  unfold source
  rintro (⟨vs, h1, h⟩ | ⟨f, -, h⟩)
  · rcases h with ⟨bs, h2, h⟩ | ⟨f, -, h⟩
    · rcases h with ⟨st, h3, -⟩ | ⟨f, -, h⟩
      · have := firstBuckets_length h2.symm
        exact search_no_result (by show 0 < bs.length; omega) st h3
      · cases h
    · cases h
  · cases h

/-- C108.  If reading past the end of the buckets is an error, no call with at least one source returns, whatever the graph, the sources, the number of threads and the schedule. -/
theorem never_returns (M inf dl : Nat) (g : Rows α) (s : Nat) (sources : List Nat) (threads thresh : Nat) (r : List (Option ℚ)) :
    ¬ noAbstraction false M inf dl g (s :: sources) threads thresh (.ok r) := by
  unfold noAbstraction
  rw [List.foldlM_cons]
  rintro (⟨k, h, -⟩ | ⟨f, -, h⟩)
  · rcases h with ⟨k', h, -⟩ | ⟨f, -, h⟩
    · exact source_no_result (by show 0 < 10; omega) k' h
    · cases h
  · cases h

/-- C108.  It is that read where the call ends: in a graph without loops, or with one thread, every run reads past the end of the buckets. -/
theorem reads_past_the_end (M inf dl : Nat) (hM : 0 < M) (hdl : 0 < dl) (g : Rows α) (hg : InRange g) (hinf : g.length < inf) (s : Nat) (hs : s < g.length) (sources : List Nat) (threads thresh : Nat)
    (hloop : threads = 1 ∨ ∀ u, ¬ Edge g u u) : Run.Faults (noAbstraction false M inf dl g (s :: sources) threads thresh) .outOfBounds := by
  obtain ⟨vs, bs, h1, h2, h3⟩ := at_start (M := M) (inf := inf) (dl := dl) (g := g) (num := 10) (by omega) hs (vs0 := fresh g.length) (by simp [fresh])
    (by intro v x hx w; rw [List.eq_of_mem_replicate (List.mem_of_getElem? hx)])
  obtain ⟨k1, k2⟩ := search_faults hM hdl hg hs hinf threads thresh hloop h3
  have hF : Run.Faults (source false M inf dl g threads thresh { vs := fresh g.length, num := 10, cent := List.replicate g.length 0 } s) .outOfBounds := by
    unfold source
    refine (Run.gives_lift h1 (Q := (· = vs)) rfl).bind_faults ?_
    rintro _ rfl
    refine (Run.gives_lift h2 (Q := (· = bs)) rfl).bind_faults ?_
    rintro _ rfl
    exact Run.Faults.bind ⟨⟨_, k1⟩, k2⟩
  unfold noAbstraction
  rw [List.foldlM_cons]
  exact Run.Faults.bind (Run.Faults.bind hF)

/-! ## One source -/

theorem fold_max (x : ℚ) (c : List ℚ) : (c.foldl max x = x ∨ c.foldl max x ∈ c) ∧ x ≤ c.foldl max x ∧ ∀ y ∈ c, y ≤ c.foldl max x := by
  induction c generalizing x with
  | nil => simp
  | cons a c ih =>
    obtain ⟨h1, h2, h3⟩ := ih (max x a)
    rw [List.foldl_cons]
    refine ⟨?_, le_trans (le_max_left _ _) h2, ?_⟩
    · rcases h1 with h1 | h1
      · rcases max_choice x a with h | h
        · left; rw [h1, h]
        · right; rw [h1, h]; simp
      · right; exact List.mem_cons_of_mem _ h1
    · intro y hy
      rcases List.mem_cons.1 hy with rfl | hy
      · exact le_trans (le_max_right _ _) h2
      · exact h3 y hy

theorem normalise_result {c : List ℚ} (hc : 0 < c.length) (h0 : ∀ y ∈ c, 0 ≤ y) : Result c true (normalise c) := by
  obtain ⟨h1, h2, h3⟩ := fold_max 0 c
  unfold Result normalise
  rw [if_pos rfl]
  refine ⟨c.foldl max 0, ?_, h3, ?_, ?_⟩
  · rcases h1 with h1 | h1
    · obtain ⟨y, hy⟩ := List.exists_mem_of_length_pos hc
      have := le_antisymm (h1 ▸ h3 y hy) (h0 y hy)
      rw [h1, ← this]; exact hy
    · exact h1
  · intro hb
    apply List.map_congr_left
    intro y _
    rw [if_neg hb]
  · intro hb
    rw [List.eq_replicate_iff]
    refine ⟨by simp, ?_⟩
    intro y hy
    obtain ⟨z, -, rfl⟩ := List.mem_map.1 hy
    rw [if_pos hb]

theorem dependency_nonneg (g : Rows α) (s v : Nat) : 0 ≤ dependency g s v := by
  unfold dependency
  apply List.sum_nonneg
  intro x hx
  obtain ⟨t, -, rfl⟩ := List.mem_map.1 hx
  exact div_nonneg (Nat.cast_nonneg _) (Nat.cast_nonneg _)

/-- The way back, after a complete search, adds the dependencies, however the threads are scheduled; no thread waits for a lock forever. -/
theorem back_gives (M inf : Nat) (g : Rows α) (hg : InRange g) (hinf : g.length < inf) (s : Nat) (hs : s < g.length) (hfit : ∀ t < g.length, (shortestPaths (simple g) s t).length < M) (vs : List Node)
    (hv : Spec.Searched M inf g s vs) (threads : Nat) (cent : List ℚ) (c0 : Nat → ℚ) (hc : Vec g.length c0 cent) :
    Run.Gives (back vs s threads cent) (Vec g.length fun v => c0 v + if v ≠ s then dependency (simple g) s v else 0) := by
  obtain ⟨hF, -⟩ := found hg hs hinf hfit hv
  have hroot : (nodeAt vs s).succs = [] → dependency (simple g) s s = 0 := by
    intro hh
    rw [← hF.total s hs]
    apply Finset.sum_eq_zero
    intro w hw
    rw [Finset.mem_range] at hw
    unfold BcAsync.pt
    rw [if_neg]
    intro hp
    have := (hF.sp s hs w).2 ⟨hw, hp⟩
    rw [hh] at this; simp at this
  unfold back
  by_cases c : threads = 1
  · rw [if_pos c]
    refine (gives_runs (back_sure (locks := false) hF (back_init hF hc (List.Perm.refl _) 1))).bind ?_
    rintro r ⟨⟨A, fin, h⟩, hend, hlen⟩
    refine Run.gives_pure (h.final hF hend ?_ hroot)
    rw [hlen]; simp [backStart]
  · rw [if_neg c]
    refine Run.Gives.bind (Q := fun q : List Nat => q.Perm (BcWork.leaves vs)) ⟨⟨_, _, List.Perm.refl _, rfl⟩, fun o ⟨q, h1, h2⟩ => ⟨q, h2, h1⟩⟩ ?_
    intro q hq
    refine (gives_runs (back_sure (locks := true) hF (back_init hF hc hq threads))).bind ?_
    rintro r ⟨⟨A, fin, h⟩, hend, -⟩
    refine (gives_runs (back_sure (locks := false) hF (h.again hend))).bind ?_
    rintro r' ⟨⟨A', fin', h'⟩, hend', hlen'⟩
    refine Run.gives_pure (h'.final hF hend' ?_ hroot)
    rw [hlen']; simp

/-- The loop over the buckets, when reading past their end is harmless, ends with the levels, path counts, predecessors and successors of the search, in whatever order the items of a round are treated, if no
`edge_l_s` has been written before. -/
theorem search_gives_partial (M inf dl : Nat) (hM : 0 < M) (hdl : 0 < dl) (g : Rows α) (hg : InRange g) (hinf : g.length < inf) (s : Nat) (hs : s < g.length) (threads thresh : Nat)
    (hloop : threads = 1 ∨ ∀ u, ¬ Edge g u u) (num : Nat) (hnum : 0 < num) (vs0 : List Node) (hv0 : vs0.length = g.length) (he0 : ∀ (v : Nat) (x : Node), vs0[v]? = some x → ∀ w, (x.edge w).1 = 0) :
    ∃ vs bs, reset M inf vs0 s = .ok vs ∧ firstBuckets g num s = .ok bs ∧ Sure (Round true M inf dl g threads thresh) (fun r => Spec.Searched M inf g s r.vs) { top := 0, bs := bs, vs := vs } := by
  obtain ⟨vs, bs, h1, h2, h3⟩ := at_start (M := M) (inf := inf) (dl := dl) (g := g) hnum hs hv0 he0
  exact ⟨vs, bs, h1, h2, search_sure hM hdl hg hs hinf threads thresh hloop h3⟩

/-- C108, partial: when reading past the end of the buckets is harmless, a call with one source ends without a fault and returns, divided by the largest score, the betweenness of every vertex with respect to
that source, whatever the number of threads, the threshold, `DELTA > 0` and the schedule; with more than one thread the graph must not have loops.  Missing: the read past the end is an error
(`never_returns`), and more than one source (`leftover_edges_wrong`). -/
theorem one_source_correct_partial (M inf dl : Nat) (hM : 0 < M) (hdl : 0 < dl) (g : Rows α) (hg : InRange g) (hinf : g.length < inf) (s : Nat) (hs : s < g.length) (threads thresh : Nat)
    (hloop : threads = 1 ∨ ∀ u, ¬ Edge g u u) (hfit : Fits M (simple g) [s]) : Run.Gives (noAbstraction true M inf dl g [s] threads thresh) (Result (exact (simple g) [s]) true) := by
  have hfit' : ∀ t < g.length, (shortestPaths (simple g) s t).length < M := fun t ht => hfit s (by simp) t (by rw [simple_length]; exact ht)
  have hsrc : Run.Gives (source true M inf dl g threads thresh { vs := fresh g.length, num := 10, cent := List.replicate g.length 0 } s) (fun k => k.cent = exact (simple g) [s]) := by
    obtain ⟨vs, bs, h1, h2, h3⟩ := search_gives_partial M inf dl hM hdl g hg hinf s hs threads thresh hloop 10 (by omega) (fresh g.length) (by simp [fresh])
      (by intro v x hx w; rw [List.eq_of_mem_replicate (List.mem_of_getElem? hx)])
    unfold source
    refine (Run.gives_lift h1 (Q := (· = vs)) rfl).bind ?_
    rintro _ rfl
    refine (Run.gives_lift h2 (Q := (· = bs)) rfl).bind ?_
    rintro _ rfl
    refine (gives_runs h3).bind ?_
    intro st hst
    refine (back_gives M inf g hg hinf s hs hfit' st.vs hst threads _ (fun _ => 0) (Vec.replicate g.length 0)).bind ?_
    intro c hc
    refine Run.gives_pure ?_
    have hc' : Vec g.length (fun v => betweenness (simple g) [s] v) c := hc.congr fun v _ => by rw [betweenness_eq]; simp
    show c = _
    unfold exact
    rw [simple_length]
    exact hc'.eq_map
  unfold noAbstraction
  have hfold : Run.Gives ([s].foldlM (source true M inf dl g threads thresh) { vs := fresh g.length, num := 10, cent := List.replicate g.length 0 }) (fun k => k.cent = exact (simple g) [s]) := by
    rw [List.foldlM_cons]
    exact hsrc.bind fun k hk => Run.gives_pure hk
  refine hfold.bind fun k hk => Run.gives_pure ?_
  rw [hk]
  refine normalise_result (by simp [exact, simple_length]; omega) ?_
  intro y hy
  obtain ⟨v, -, rfl⟩ := List.mem_map.1 hy
  rw [betweenness_eq]
  simp only [List.map_cons, List.map_nil, List.sum_cons, List.sum_nil, add_zero]
  split
  · exact dependency_nonneg _ _ _
  · exact le_refl _

/-! ## Loops in a parallel round -/

/-- C108.  If the row of a source has a loop and more entries than the threshold and there is more than one thread, the call never returns: a thread locks the same vertex twice. -/
theorem loop_hangs (lenient : Bool) (M inf dl : Nat) (g : Rows α) (s : Nat) (hs : s < g.length) (he : Edge g s s) (threads thresh : Nat) (ht : threads ≠ 1) (hlen : thresh < (g[s]'hs).length) (o : Res (List (Option ℚ))) :
    ¬ noAbstraction lenient M inf dl g [s] threads thresh o := by
  obtain ⟨bs, b1, b2, b3⟩ := first_ok (g := g) (num := 10) (by omega) hs
  have hb0 : ∃ b, bs[0]? = some b ∧ (s, s) ∈ b := (b3 0 (s, s)).2 ⟨rfl, rfl, he⟩
  have hblen : ∀ b, bs[0]? = some b → b.length = (g[s]'hs).length := by
    have key : ∀ (row : List (Nat × α)) (bs bs' : Buckets), row.foldlM (fun bs a => do
        let b ← vget bs 0
        vset bs 0 (b ++ [(s, a.1)])) bs = (.ok bs' : Res Buckets) → ∀ b b', bs[0]? = some b → bs'[0]? = some b' → b'.length = b.length + row.length := by
      intro row
      induction row with
      | nil => intro bs bs' h b b' h1 h2; cases h; rw [h1] at h2; cases h2; rfl
      | cons a row ih =>
        intro bs bs' h b b' h1 h2
        have c : 0 < bs.length := (List.getElem?_eq_some_iff.1 h1).1
        rw [List.foldlM_cons, vget_of_lt c, res_bind_ok, vset_of_lt c, res_bind_ok] at h
        have := ih _ _ h _ b' (getElem?_set_same h1) h2
        rw [List.getElem?_eq_getElem c] at h1
        cases h1
        simp at this ⊢; omega
    intro b hb
    unfold firstBuckets at b1
    rw [vget_of_lt hs, res_bind_ok] at b1
    have := key _ _ _ b1 [] b (by simp) hb
    simpa using this
  have hruns : ∀ (vs : List Node) o, ¬ Runs (Round lenient M inf dl g threads thresh) { top := 0, bs := bs, vs := vs } o := by
    have hno : ∀ (vs : List Node) o, ¬ Round lenient M inf dl g threads thresh { top := 0, bs := bs, vs := vs } o := by
      intro vs o h
      obtain ⟨b, hb, hm⟩ := hb0
      unfold Round at h
      simp only [hb] at h
      rw [if_pos ⟨ht, by rw [hblen b hb]; exact hlen⟩] at h
      exact h.1 _ hm rfl
    intro vs o h
    cases h with
    | done h => exact hno _ _ h
    | fault h => exact hno _ _ h
    | step h _ => exact hno _ _ h
  have hsrc : ∀ o, ¬ source lenient M inf dl g threads thresh { vs := fresh g.length, num := 10, cent := List.replicate g.length 0 } s o := by
    intro o h
    unfold source at h
    obtain ⟨vs, bs', hv, -⟩ := at_start (M := M) (inf := inf) (dl := dl) (g := g) (num := 10) (by omega) hs (vs0 := fresh g.length) (by simp [fresh])
      (by intro v x hx w; rw [List.eq_of_mem_replicate (List.mem_of_getElem? hx)])
    rcases h with ⟨vs', h1, h⟩ | ⟨f, h1, -⟩
    · rcases h with ⟨bs2, h2, h⟩ | ⟨f, h2, -⟩
      · have h2 : Except.ok bs2 = firstBuckets g 10 s := h2
        rw [b1] at h2; cases h2
        rcases h with ⟨st, h3, -⟩ | ⟨f, h3, -⟩
        · exact hruns _ _ h3
        · exact hruns _ _ h3
      · have h2 : Except.error f = firstBuckets g 10 s := h2
        rw [b1] at h2; cases h2
    · have h1 : Except.error f = reset M inf (fresh g.length) s := h1
      rw [hv] at h1; cases h1
  unfold noAbstraction
  rw [List.foldlM_cons]
  rintro (⟨k, h, -⟩ | ⟨f, h, -⟩)
  · rcases h with ⟨k', h, -⟩ | ⟨f, h, -⟩
    · exact hsrc _ h
    · exact hsrc _ h
  · rcases h with ⟨k', h, -⟩ | ⟨f, h, -⟩
    · exact hsrc _ h
    · exact hsrc _ h

/-! ## More than one source -/

/-- Running the rounds with one thread. -/
def execRounds (M inf dl : Nat) (g : Rows α) : Nat → St → Option St
  | 0, _ => none
  | k + 1, st =>
    match st.bs[st.top]? with
    | none => some st
    | some b =>
      match round true M inf dl g st b with
      | .ok st' => execRounds M inf dl g k st'
      | .error _ => none

theorem execRounds_runs {M inf dl : Nat} {g : Rows α} {thresh k : Nat} {st st' : St} (h : execRounds M inf dl g k st = some st') : Runs (Round true M inf dl g 1 thresh) st (.ok st') := by
  induction k generalizing st with
  | zero => cases h
  | succ k ih =>
    unfold execRounds at h
    cases hb : st.bs[st.top]? with
    | none =>
      rw [hb] at h
      cases h
      refine .done ?_
      unfold Round
      rw [hb]
    | some b =>
      rw [hb] at h
      simp only at h
      cases hr : round true M inf dl g st b with
      | error f => rw [hr] at h; cases h
      | ok st2 =>
        rw [hr] at h
        refine .step (s' := st2) ?_ (ih h)
        unfold Round
        rw [hb]
        simp only [ne_eq, not_true_eq_false, false_and, if_false]
        rw [hr]; rfl

/-- Running the way back with one thread. -/
def execBack (vs : List Node) (s : Nat) : Nat → BSt → Option BSt
  | 0, _ => none
  | k + 1, st =>
    match st.ts with
    | [.ended] => some st
    | [.look (v :: buf)] =>
      match begin vs st.delta v buf with
      | .ok t => execBack vs s k { st with ts := st.ts.set 0 t }
      | .error _ => none
    | [.look []] =>
      match st.q with
      | [] => execBack vs s k { st with ts := st.ts.set 0 .ended }
      | v :: q =>
        match begin vs st.delta v [] with
        | .ok t => execBack vs s k { st with q := q, ts := st.ts.set 0 t }
        | .error _ => none
    | [.proc v temp (u :: us) buf] =>
      match backPred vs s false st 0 v temp u us buf with
      | .ok st' => execBack vs s k st'
      | .error _ => none
    | [.proc v _ [] buf] =>
      match addScore st 0 v buf with
      | .ok st' => execBack vs s k st'
      | .error _ => none
    | _ => none

theorem execBack_runs {vs : List Node} {s k : Nat} {st st' : BSt} (h : execBack vs s k st = some st') : Runs (BStep vs s false) st (.ok st') := by
  induction k generalizing st with
  | zero => cases h
  | succ k ih =>
    unfold execBack at h
    split at h
    · rename_i ht
      cases h
      exact .done (.join (by rw [ht]; simp))
    · rename_i v buf ht
      split at h
      · rename_i t e
        refine .step ?_ (ih h)
        have := BStep.own (vs := vs) (s := s) (locks := false) (st := st) (i := 0) (v := v) (buf := buf) (by rw [ht]; rfl)
        rw [e] at this
        exact this
      · cases h
    · rename_i ht
      split at h
      · rename_i hq
        exact .step (.leave (by rw [ht]; rfl) hq) (ih h)
      · rename_i v q hq
        split at h
        · rename_i t e
          refine .step ?_ (ih h)
          have := BStep.pop (vs := vs) (s := s) (locks := false) (st := st) (i := 0) (v := v) (q := q) (by rw [ht]; rfl) hq
          rw [e] at this
          exact this
        · cases h
    · rename_i v temp u us buf ht
      split at h
      · rename_i t e
        refine .step ?_ (ih h)
        have := BStep.pred (vs := vs) (s := s) (locks := false) (st := st) (i := 0) (v := v) (temp := temp) (u := u) (us := us) (buf := buf) (by rw [ht]; rfl) (by simp)
        rw [e] at this
        exact this
      · cases h
    · rename_i v temp buf ht
      split at h
      · rename_i t e
        refine .step ?_ (ih h)
        have := BStep.add (vs := vs) (s := s) (locks := false) (st := st) (i := 0) (v := v) (temp := temp) (buf := buf) (by rw [ht]; rfl)
        rw [e] at this
        exact this
      · cases h
    · cases h

/-- One source with one thread. -/
def execSource (M inf dl : Nat) (g : Rows α) (fuel : Nat) (k : Kept) (s : Nat) : Option Kept :=
  match reset M inf k.vs s, firstBuckets g k.num s with
  | .ok vs, .ok bs =>
    match execRounds M inf dl g fuel { top := 0, bs := bs, vs := vs } with
    | some st =>
      match execBack st.vs s fuel (backStart st.vs (BcWork.leaves st.vs) 1 k.cent) with
      | some b => some { vs := st.vs, num := st.bs.length, cent := b.cent }
      | none => none
    | none => none
  | _, _ => none

theorem execSource_runs {M inf dl : Nat} {g : Rows α} {thresh fuel : Nat} {k k' : Kept} {s : Nat} (h : execSource M inf dl g fuel k s = some k') : source true M inf dl g 1 thresh k s (.ok k') := by
  unfold execSource at h
  split at h
  · rename_i vs bs e1 e2
    split at h
    · rename_i st e3
      split at h
      · rename_i b e4
        cases h
        unfold source
        refine Or.inl ⟨vs, e1.symm, Or.inl ⟨bs, e2.symm, Or.inl ⟨st, execRounds_runs e3, Or.inl ⟨b.cent, ?_, rfl⟩⟩⟩⟩
        unfold back
        rw [if_pos rfl]
        exact Or.inl ⟨b, execBack_runs e4, rfl⟩
      · cases h
    · cases h
  · cases h

/-- Two ways from 0 to 3. -/
def exD : Rows Unit := [[(1, ()), (2, ())], [(3, ())], [(3, ())], []]

/-- C108.  `edge_l_s` is kept from one source to the next, and the second search of the same source takes a predecessor for known: with the sources 0 and 0 the scores of the vertices 1 and 2, which are equal, come out
as 1 and 1/3. -/
theorem leftover_edges_wrong : ∃ r, noAbstraction true (2 ^ 64) (2 ^ 32 - 1) 1 exD [0, 0] 1 1000 (.ok r) ∧ r = [some 0, some 1, some (1 / 3), some 0] ∧ ¬ Result (exact (simple exD) [0, 0]) true r := by
  have hex : ((execSource (2 ^ 64) (2 ^ 32 - 1) 1 exD 40 { vs := fresh 4, num := 10, cent := List.replicate 4 0 } 0).bind fun k =>
      (execSource (2 ^ 64) (2 ^ 32 - 1) 1 exD 40 k 0).map fun k => normalise k.cent) = some [some 0, some 1, some (1 / 3), some 0] := by decide +kernel
  cases e1 : execSource (2 ^ 64) (2 ^ 32 - 1) 1 exD 40 { vs := fresh 4, num := 10, cent := List.replicate 4 0 } 0 with
  | none => rw [e1] at hex; simp at hex
  | some k1 =>
    rw [e1, Option.bind_some] at hex
    cases e2 : execSource (2 ^ 64) (2 ^ 32 - 1) 1 exD 40 k1 0 with
    | none => rw [e2] at hex; simp at hex
    | some k2 =>
      rw [e2, Option.map_some] at hex
      refine ⟨_, ?_, rfl, ?_⟩
      · unfold noAbstraction
        refine Or.inl ⟨k2, ?_, ?_⟩
        · rw [List.foldlM_cons]
          refine Or.inl ⟨k1, execSource_runs e1, ?_⟩
          show ([0].foldlM (source true (2 ^ 64) (2 ^ 32 - 1) 1 exD 1 1000) k1 : Run Kept) (.ok k2)
          rw [List.foldlM_cons]
          exact Or.inl ⟨k2, execSource_runs e2, rfl⟩
        · rw [← Option.some.inj hex]; rfl
      · intro h
        have h0 : exact (simple exD) [0, 0] = [0, 1, 1, 0] := by decide +kernel
        unfold Result at h
        rw [if_pos rfl, h0] at h
        obtain ⟨b, -, h2, h3, h4⟩ := h
        have hb := h2 1 (by simp)
        have hb0 : b ≠ 0 := by rintro rfl; norm_num at hb
        have := h3 hb0
        simp at this
        obtain ⟨a1, a2⟩ := this
        rw [← a2] at a1
        norm_num at a1

/-! ## Examples -/

theorem exD_inRange : InRange exD := by
  intro u w h
  have hu : u < 4 := h.src_lt
  have h' : w ∈ nbrs exD u := h
  match u, hu with
  | 0, _ => revert h'; simp [exD, nbrs]; show _ → w < 4; omega
  | 1, _ => revert h'; simp [exD, nbrs]; show _ → w < 4; omega
  | 2, _ => revert h'; simp [exD, nbrs]; show _ → w < 4; omega
  | 3, _ => revert h'; simp [exD, nbrs]

theorem exD_loops (u : Nat) : ¬ Edge exD u u := by
  intro h
  have hu : u < 4 := h.src_lt
  have h' : u ∈ nbrs exD u := h
  match u, hu with
  | 0, _ => revert h'; simp [exD, nbrs]
  | 1, _ => revert h'; simp [exD, nbrs]
  | 2, _ => revert h'; simp [exD, nbrs]
  | 3, _ => revert h'; simp [exD, nbrs]

/-- Four threads, all rounds parallel. -/
example : Run.Gives (noAbstraction true (2 ^ 64) (2 ^ 32 - 1) 2 exD [0] 4 0) (Result [0, 1 / 2, 1 / 2, 0] true) := by
  have h0 : exact (simple exD) [0] = [0, 1 / 2, 1 / 2, 0] := by decide +kernel
  rw [← h0]
  refine one_source_correct_partial _ _ _ (by decide) (by decide) exD exD_inRange (by decide) 0 (by decide) 4 0 (Or.inr exD_loops) ?_
  intro s hs t ht
  have h1 : s = 0 := by simpa using hs
  subst h1
  have : ∀ t < 4, (shortestPaths (simple exD) 0 t).length < 2 ^ 64 := by decide +kernel
  exact this t ht

example : Run.Faults (noAbstraction false (2 ^ 64) (2 ^ 32 - 1) 2 exD [0, 1] 4 0) .outOfBounds :=
  reads_past_the_end _ _ _ (by decide) (by decide) exD exD_inRange (by decide) 0 (by decide) [1] 4 0 (Or.inr exD_loops)

example (o : Res (List (Option ℚ))) : ¬ noAbstraction true (2 ^ 64) (2 ^ 32 - 1) 2 ([[(0, ()), (1, ())], []] : Rows Unit) [0] 4 1 o :=
  loop_hangs _ _ _ _ _ 0 (by decide) (by simp [Edge, nbrs]) 4 1 (by decide) (by decide) o

end NW.BcNoAbs
