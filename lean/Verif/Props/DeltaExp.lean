import Verif.Model.DeltaExp
import Verif.Props.DeltaPar
import Verif.ConcurSim
import Mathlib.Data.List.Perm.Basic

/-! # C90: the experimental versions of delta stepping -/

namespace NW.DeltaExp
open NW.Sssp Spec

variable {α : Type}

/-- A task that is not done. -/
def open' (t : PTask α) : Bool := !t.isDone

/-- The tasks of a block that are not done. -/
def Block.pend (b : Block α) : List (PTask α) := (b.now ++ b.later).filter open'

/-- A state of the version with blocks and a state of the version where every task may run at any time, with the same unfinished tasks. -/
inductive Rel : BState α → PState α → Prop
  | head (dist bins top) : Rel (.head dist bins top) (.head dist bins top)
  | round (dist bins top) {bs : List (Block α)} {ts : List (PTask α)} (hl : ∀ b ∈ bs, ∀ t ∈ b.later, open' t = true)
      (hp : (bs.flatMap Block.pend).Perm (ts.filter open')) : Rel (.round dist bins top bs) (.round dist bins top ts)

theorem open'_iff {t : PTask α} : open' t = true ↔ t.isDone = false := by simp [open']

theorem flatMap_split {bs : List (Block α)} {k : Nat} {b : Block α} (hk : bs[k]? = some b) :
    (bs.flatMap Block.pend).Perm (b.pend ++ (bs.eraseIdx k).flatMap Block.pend) := by
  obtain ⟨h1, h2⟩ := List.getElem?_eq_some_iff.1 hk
  have := (List.getElem_cons_eraseIdx_perm h1).symm.flatMap_right Block.pend
  rw [h2, List.flatMap_cons] at this
  exact this

theorem flatMap_set {bs : List (Block α)} {k : Nat} {b : Block α} (hk : bs[k]? = some b) (b' : Block α) :
    ((bs.set k b').flatMap Block.pend).Perm (b'.pend ++ (bs.eraseIdx k).flatMap Block.pend) := by
  obtain ⟨h1, -⟩ := List.getElem?_eq_some_iff.1 hk
  have := (List.set_perm_cons_eraseIdx h1 b').flatMap_right Block.pend
  rw [List.flatMap_cons] at this
  exact this

/-- The tasks a step creates are not done. -/
theorem pTask_new {g : Rows α} {wt : Nat × α → Nat} {dmax delta : Nat} {flag : Option Bool} {top : Nat} {dist : List Nat} {bins : List (List Nat)}
    {t : PTask α} {x : List Nat × List (List Nat) × PTask α × List (PTask α)} (h : pTask g wt dmax delta flag top dist bins t = .ok x) :
    ∀ t' ∈ x.2.2.2, open' t' = true := by
  have hmap : ∀ (u : Nat) (r : List (Nat × α)), ∀ t' ∈ r.map (PTask.start u), open' t' = true := by
    intro u r t' ht'
    obtain ⟨e, -, rfl⟩ := List.mem_map.1 ht'
    rfl
  cases t with
  | vertex u =>
    simp only [pTask] at h
    cases h1 : vget dist u with
    | error f => rw [h1] at h; cases h
    | ok du =>
      rw [h1, res_bind_ok] at h
      split at h
      · cases h2 : vget g u with
        | error f => rw [h2] at h; cases h
        | ok r =>
          rw [h2, res_bind_ok] at h
          cases h
          exact hmap u r
      · cases h; intro t' ht'; cases ht'
  | start u e =>
    simp only [pTask] at h
    cases h1 : vget dist u with
    | error f => rw [h1] at h; cases h
    | ok du => rw [h1, res_bind_ok] at h; cases h; intro t' ht'; cases ht'
  | haveNext v next =>
    simp only [pTask] at h
    cases h1 : vget dist v with
    | error f => rw [h1] at h; cases h
    | ok du => rw [h1, res_bind_ok] at h; cases h; intro t' ht'; cases ht'
  | havePrev v next prev tried =>
    simp only [pTask] at h
    split at h
    · cases h1 : vget dist v with
      | error f => rw [h1] at h; cases h
      | ok du =>
        rw [h1, res_bind_ok] at h
        split at h
        · cases h2 : vset dist v next with
          | error f => rw [h2] at h; cases h
          | ok d' => rw [h2, res_bind_ok] at h; cases h; intro t' ht'; cases ht'
        · cases h; intro t' ht'; cases ht'
    · split at h
      · cases h; intro t' ht'; cases ht'
      · split at h
        · cases h
        · cases h; intro t' ht'; cases ht'
        · cases h; intro t' ht'; cases ht'
  | push v next =>
    simp only [pTask] at h
    cases h1 : pushBin delta v next bins with
    | error f => rw [h1] at h; cases h
    | ok b' => rw [h1, res_bind_ok] at h; cases h; intro t' ht'; cases ht'
  | done => cases h; intro t' ht'; cases ht'

/-- The same task takes the same step in both programs. -/
theorem Rel.task {g : Rows α} {wt : Nat × α → Nat} {dmax delta : Nat} {flag : Option Bool} {dist : List Nat} {bins : List (List Nat)} {top : Nat}
    {bs : List (Block α)} {ts : List (PTask α)} {t : PTask α} {k : Nat} {b : Block α} {others : List (PTask α)}
    (B : List Nat × List (List Nat) × PTask α × List (PTask α) → Block α)
    (hl : ∀ b ∈ bs, ∀ t ∈ b.later, open' t = true) (hp : (bs.flatMap Block.pend).Perm (ts.filter open')) (hk : bs[k]? = some b) (ht : open' t = true)
    (hb : b.pend.Perm (t :: others))
    (hB : ∀ x, (∀ t' ∈ x.2.2.2, open' t' = true) → (B x).pend.Perm ((x.2.2.1 :: x.2.2.2).filter open' ++ others) ∧ ∀ t' ∈ (B x).later, open' t' = true) :
    ∃ o', PStep g wt dmax delta flag (.round dist bins top ts) o' ∧
      Match Rel ((pTask g wt dmax delta flag top dist bins t).map fun x => .inl (.round x.1 x.2.1 top (bs.set k (B x)))) (o' : Res (PState α ⊕ List Nat)) := by
  have hq := ((flatMap_split hk).trans (hb.append_right _)).symm.trans hp
  rw [List.cons_append] at hq
  have hmem : t ∈ ts := (List.mem_filter.1 (hq.subset List.mem_cons_self)).1
  obtain ⟨j, hj⟩ := List.getElem?_of_mem hmem
  obtain ⟨hj1, hj2⟩ := List.getElem?_eq_some_iff.1 hj
  refine ⟨_, .task hj (open'_iff.1 ht), ?_⟩
  cases hx : pTask g wt dmax delta flag top dist bins t with
  | error f => exact .fault f
  | ok x =>
    obtain ⟨h1, h2⟩ := hB x (pTask_new hx)
    refine .next (.round _ _ _ ?_ ?_)
    · intro b' hb' t' ht'
      rcases List.mem_or_eq_of_mem_set hb' with h | rfl
      · exact hl _ h _ ht'
      · exact h2 _ ht'
    · have k1 : (ts.filter open').Perm (t :: (ts.eraseIdx j).filter open') := by
        have := (List.getElem_cons_eraseIdx_perm hj1).symm.filter open'
        rw [hj2, List.filter_cons_of_pos ht] at this
        exact this
      have k2 := (hq.trans k1).cons_inv
      have k3 : (others ++ (bs.eraseIdx k).flatMap Block.pend).Perm ((ts.eraseIdx j).filter open') := k2
      have k4 : ((ts.set j x.2.2.1 ++ x.2.2.2).filter open').Perm ((x.2.2.1 :: x.2.2.2).filter open' ++ (ts.eraseIdx j).filter open') := by
        rw [← List.filter_append]
        refine List.Perm.filter _ ?_
        refine ((List.set_perm_cons_eraseIdx hj1 x.2.2.1).append_right _).trans ?_
        rw [List.cons_append, List.cons_append]
        exact (List.perm_append_comm).cons _
      refine (flatMap_set hk (B x)).trans ((h1.append_right _).trans ?_)
      rw [List.append_assoc]
      exact (k3.append_left _).trans k4.symm

theorem pend_nil_of_done {l : List (PTask α)} (h : ∀ t ∈ l, t.isDone = true) : l.filter open' = [] := by
  rw [List.filter_eq_nil_iff]
  intro t ht
  simp [open', h t ht]

theorem filter_later {b : Block α} (h : ∀ t ∈ b.later, open' t = true) : b.later.filter open' = b.later := List.filter_eq_self.2 h

/-- The schedules of the blocks are among those of `PStep`. -/
theorem sim (sh : Shape) (g : Rows α) (wt : Nat × α → Nat) (dmax delta : Nat) (flag : Option Bool) :
    Sim (BStep sh (pTask g wt dmax delta flag)) (PStep g wt dmax delta flag) Rel := by
  constructor
  · intro s t hR
    cases hR with
    | head dist bins top =>
      by_cases c : top < bins.length
      · refine ⟨_, .take (List.getElem?_eq_getElem c) (bins[top].map ([·])) ?_ ?_⟩
        · induction bins[top] with
          | nil => rfl
          | cons a l ih => rw [List.map_cons, List.flatten_cons, ih]; rfl
        · intro _ c hc
          obtain ⟨_, -, rfl⟩ := List.mem_map.1 hc
          rfl
      · exact ⟨_, .stop (by omega)⟩
    | @round dist bins top bs ts hl hp =>
      by_cases c : ∀ b ∈ bs, (∀ t ∈ b.now, t.isDone = true) ∧ b.later = []
      · exact ⟨_, .join c⟩
      · simp only [not_forall] at c
        obtain ⟨b, hb, c⟩ := c
        obtain ⟨k, hk⟩ := List.getElem?_of_mem hb
        by_cases c1 : ∀ t ∈ b.now, t.isDone = true
        · cases hlat : b.later with
          | nil => exact absurd ⟨c1, hlat⟩ c
          | cons t rest => exact ⟨_, .next hk c1 hlat⟩
        · simp only [not_forall] at c1
          obtain ⟨t, ht, hd⟩ := c1
          obtain ⟨i, hi⟩ := List.getElem?_of_mem ht
          exact ⟨_, .inner hk hi (by simpa using hd)⟩
  · intro s t o hR hs
    cases hs with
    | stop h =>
      cases hR
      refine ⟨_, .head, ?_⟩
      rw [pHead, if_neg (by omega)]
      exact .fin _
    | @take dist bins top frontier h cuts hc hsing =>
      cases hR
      refine ⟨_, .head, ?_⟩
      obtain ⟨h1, h2⟩ := List.getElem?_eq_some_iff.1 h
      rw [pHead, if_pos h1, vget_of_lt h1, res_bind_ok, vset_of_lt h1, res_bind_ok]
      refine .next (.round _ _ _ ?_ ?_)
      · intro b hb t ht
        obtain ⟨c, -, rfl⟩ := List.mem_map.1 hb
        obtain ⟨u, -, rfl⟩ := List.mem_map.1 ht
        rfl
      · rw [h2, ← hc]
        clear hc hsing h h1 h2
        induction cuts with
        | nil => exact .refl _
        | cons c cs ih =>
          rw [List.map_cons, List.flatMap_cons, List.flatten_cons, List.map_append, List.filter_append]
          exact ih.append_left _
    | @inner dist bins top bs k i b t hk hi hf =>
      cases hR with
      | round _ _ _ hl hp =>
        obtain ⟨hi1, hi2⟩ := List.getElem?_eq_some_iff.1 hi
        have hopen := open'_iff.2 hf
        have hlb := hl b (List.mem_of_getElem? hk)
        refine Rel.task (others := (b.now.eraseIdx i).filter open' ++ b.later) (fun x => ⟨b.now.set i x.2.2.1 ++ x.2.2.2, b.later⟩) hl hp hk hopen ?_ ?_
        · rw [Block.pend, List.filter_append, filter_later hlb, ← List.cons_append]
          refine List.Perm.append_right _ ?_
          have := (List.getElem_cons_eraseIdx_perm hi1).symm.filter open'
          rw [hi2, List.filter_cons_of_pos hopen] at this
          exact this
        · intro x hx
          refine ⟨?_, hlb⟩
          rw [Block.pend, List.filter_append, filter_later hlb, ← List.append_assoc, ← List.filter_append]
          refine List.Perm.append_right _ (List.Perm.filter _ ?_)
          refine ((List.set_perm_cons_eraseIdx hi1 x.2.2.1).append_right _).trans ?_
          rw [List.cons_append, List.cons_append]
          exact (List.perm_append_comm).cons _
    | @next dist bins top bs k b t rest hk hn hlat =>
      cases hR with
      | round _ _ _ hl hp =>
        have hlb := hl b (List.mem_of_getElem? hk)
        have hopen := hlb t (by rw [hlat]; exact List.mem_cons_self)
        have hrest : ∀ t ∈ rest, open' t = true := fun t ht => hlb t (by rw [hlat]; exact List.mem_cons_of_mem _ ht)
        refine Rel.task (others := rest) (fun x => Block.advance sh x.2.2.1 x.2.2.2 rest) hl hp hk hopen ?_ ?_
        · rw [Block.pend, List.filter_append, pend_nil_of_done hn, filter_later hlb, hlat, List.nil_append]
        · intro x hx
          rw [Block.advance]
          split
          · refine ⟨?_, hrest⟩
            rw [Block.pend, List.filter_append, List.filter_eq_self.2 hrest]
          · refine ⟨?_, ?_⟩
            · rw [Block.pend]
              show (([x.2.2.1] ++ (x.2.2.2 ++ rest)).filter open').Perm _
              rw [← List.append_assoc, List.filter_append, List.filter_eq_self.2 hrest]
              rfl
            · intro t' ht'
              rcases List.mem_append.1 ht' with h | h
              · exact hx _ h
              · exact hrest _ h
    | @join dist bins top bs hn =>
      cases hR with
      | @round _ _ _ _ ts hl hp =>
        refine ⟨_, .join ?_, .next (.head _ _ _)⟩
        intro t ht
        cases hd : t.isDone with
        | true => rfl
        | false =>
          have hm : t ∈ ts.filter open' := List.mem_filter.2 ⟨ht, open'_iff.2 hd⟩
          obtain ⟨b, h1, h2⟩ := List.mem_flatMap.1 (hp.symm.subset hm)
          have := hn b h1
          rw [Block.pend, this.2, List.append_nil, pend_nil_of_done this.1] at h2
          cases h2

theorem task8_eq (g : Rows α) (wt : Nat × α → Nat) (dmax delta : Nat) : task8 g wt dmax delta = pTask g wt dmax delta (some false) := by
  funext top dist bins t
  cases t with
  | havePrev v next prev tried =>
    simp only [task8, pTask]
    split
    · rfl
    · split <;> rfl
  | _ => rfl

theorem bInit_rel {g : Rows α} {dmax source : Nat} {st : PState α} (h : pInit g dmax source = .ok st) :
    ∃ s, bInit g dmax source = .ok s ∧ Rel s st := by
  rw [pInit] at h
  rw [bInit]
  cases h1 : vset (List.replicate g.length dmax) source 0 with
  | error f => rw [h1] at h; cases h
  | ok d =>
    rw [h1, res_bind_ok] at h
    cases h
    exact ⟨_, rfl, .head _ _ _⟩

/-- C90, `delta_stepping_v8`: under every schedule it ends without a fault and returns the distances. -/
theorem delta_stepping_v8_correct (g : Rows α) (wt : Nat × α → Nat) (source W dmax delta : Nat) (hu : Usable g wt source W dmax) (hd : 0 < delta)
    (hmax : 0 < dmax) :
    ∃ st, bInit g dmax source = .ok st ∧ Sure (BStep shape8 (task8 g wt dmax delta)) (Distances g wt source dmax) st := by
  obtain ⟨st, h1, h2⟩ := delta_stepping_parallel_partial g wt source W dmax delta hu hd hmax
  obtain ⟨s, k1, k2⟩ := bInit_rel h1
  rw [task8_eq]
  exact ⟨s, k1, (sim shape8 g wt dmax delta (some false)).sure k2 h2⟩

/-- C90, `delta_stepping_v9`, `_v10`, `_v11`, positive part.  If the uninitialised flag happens to read as `false`, then under every schedule and however the
frontier is cut into blocks (`sh` is `shape9`, `shape10` or `shape11`) they end without a fault and return the distances.  Missing from the full statement: the flag is not initialised
(`delta_stepping_v9_v10_v11_uninitialised`). -/
theorem delta_stepping_v9_v10_v11_partial (sh : Shape) (g : Rows α) (wt : Nat × α → Nat)
    (source W dmax delta : Nat) (hu : Usable g wt source W dmax) (hd : 0 < delta) (hmax : 0 < dmax) :
    ∃ st, bInit g dmax source = .ok st ∧ Sure (BStep sh (task9 g wt dmax delta (some false))) (Distances g wt source dmax) st := by
  obtain ⟨st, h1, h2⟩ := delta_stepping_parallel_partial g wt source W dmax delta hu hd hmax
  obtain ⟨s, k1, k2⟩ := bInit_rel h1
  exact ⟨s, k1, (sim sh g wt dmax delta (some false)).sure k2 h2⟩

/-- C90, `delta_stepping_v9`, `_v10`, `_v11`, negative part.  On every graph with an edge from a reachable vertex back to the source no schedule makes them
return: each reads the uninitialised flag (and one does so after finitely many steps). -/
theorem delta_stepping_v9_v10_v11_uninitialised (sh : Shape) (g : Rows α) (wt : Nat × α → Nat)
    (source W dmax delta : Nat) (hu : Usable g wt source W dmax) (hd : 0 < delta) (hmax : 0 < dmax) {u : Nat} (hr : Reachable g source u)
    (he : Edge g u source) :
    ∃ st, bInit g dmax source = .ok st ∧ (∀ o, Runs (BStep sh (task9 g wt dmax delta none)) st o → o = .error .uninitialised) ∧
      Runs (BStep sh (task9 g wt dmax delta none)) st (.error .uninitialised) := by
  obtain ⟨st, h1, h2, -⟩ := delta_stepping_parallel_uninitialised g wt source W dmax delta hu hd hmax hr he
  obtain ⟨s, k1, k2⟩ := bInit_rel h1
  have hall : ∀ o, Runs (BStep sh (task9 g wt dmax delta none)) s o → o = .error .uninitialised :=
    fun o ho => h2 o ((sim sh g wt dmax delta none).runs k2 ho)
  refine ⟨s, k1, hall, ?_⟩
  have hend : Ends (PStep g wt dmax delta none) st := by
    have hc : Ctx g wt source W dmax dmax := ⟨hu.inRange, hu.sourceLt, hu.weights, hu.noWrap, hmax⟩
    obtain ⟨st', h1', h2'⟩ := pInit_ok (delta := delta) (flag := none) hc
    obtain rfl : st = st' := by rw [h1] at h1'; cases h1'; rfl
    clear h1 h1' h2 k2 hall
    generalize hm : pMeasure dmax st = m
    induction m using pLt_wf.induction generalizing st with
    | _ m ih =>
      subst hm
      refine .mk (pHas_step st) ?_
      intro st' hs
      rcases pstep hc hd (by simp) h2' hs with ⟨_, k, k2, k3⟩ | ⟨_, k, -⟩ | ⟨-, k⟩
      · cases k
        exact ih _ k3 _ k2 rfl
      · cases k
      · cases k
  obtain ⟨o, ho⟩ := ((sim sh g wt dmax delta none).ends k2 hend).exists_run
  exact hall o ho ▸ ho

/-- The choices of a scheduler: a running task of a block, the next waiting task of a block, or the outer loop. -/
inductive Pick where
  | inner (k i : Nat)
  | next (k : Nat)

/-- Runs the chosen tasks. -/
def play (sh : Shape) (task : Task α) : List Pick → BState α → Option (BState α)
  | [], s => some s
  | p :: ps, .round dist bins top bs =>
    match p with
    | .inner k i =>
      match bs[k]? with
      | none => none
      | some b =>
        match b.now[i]? with
        | none => none
        | some t =>
          if t.isDone then none
          else match task top dist bins t with
            | .error _ => none
            | .ok x => play sh task ps (.round x.1 x.2.1 top (bs.set k ⟨b.now.set i x.2.2.1 ++ x.2.2.2, b.later⟩))
    | .next k =>
      match bs[k]? with
      | none => none
      | some b =>
        if b.now.all PTask.isDone then
          match b.later with
          | [] => none
          | t :: rest => match task top dist bins t with
            | .error _ => none
            | .ok x => play sh task ps (.round x.1 x.2.1 top (bs.set k (Block.advance sh x.2.2.1 x.2.2.2 rest)))
        else none
  | _ :: _, .head .. => none

theorem play_runs {sh : Shape} {task : Task α} {o : Res (List Nat)} (ps : List Pick) : ∀ {s s' : BState α}, play sh task ps s = some s' →
    Runs (BStep sh task) s' o → Runs (BStep sh task) s o := by
  induction ps with
  | nil => intro s s' h hr; cases h; exact hr
  | cons p ps ih =>
    intro s s' h hr
    cases s with
    | head => cases p <;> simp [play] at h
    | round dist bins top bs =>
      cases p with
      | inner k i =>
        simp only [play] at h
        split at h
        · cases h
        · rename_i b hb
          split at h
          · cases h
          · rename_i t ht
            split at h
            · cases h
            · rename_i hd
              split at h
              · cases h
              · rename_i x hx
                have := BStep.inner (sh := sh) (task := task) (dist := dist) (bins := bins) (top := top) hb ht (by simpa using hd)
                rw [hx] at this
                exact .step this (ih h hr)
      | next k =>
        simp only [play] at h
        split at h
        · cases h
        · rename_i b hb
          split at h
          · rename_i hd
            split at h
            · cases h
            · rename_i t rest hl
              split at h
              · cases h
              · rename_i x hx
                have := BStep.next (sh := sh) (task := task) (dist := dist) (bins := bins) (top := top) hb (by simpa using hd) hl
                rw [hx] at this
                exact .step this (ih h hr)
          · cases h

/-- Two routes from 0 to 3: by 1 of weight 2, by 2 of weight 7. -/
def exRace : Rows Nat := [[(1, 1), (2, 2)], [(3, 1)], [(3, 5)], []]

/-- C90, `delta_stepping_v6`, negative part: two threads that have both seen the old distance of a vertex, the worse one writing last, make it return a
distance that is too large. -/
theorem delta_stepping_v6_wrong : ∃ (g : Rows Nat) (source W dmax delta : Nat) (st : BState Nat) (d : List Nat),
    Usable g (·.2) source W dmax ∧ 0 < delta ∧ 0 < dmax ∧ bInit g dmax source = .ok st ∧
      Runs (BStep shape6 (task6 g (·.2) dmax delta)) st (.ok d) ∧ ¬ Distances g (·.2) source dmax d := by
  refine ⟨exRace, 0, 5, 255, 10, _, [0, 1, 2, 7], ⟨?_, by decide, ?_, by decide⟩, by decide, by decide, rfl, ?_, ?_⟩
  · decide
  · intro u e he
    match u with
    | 0 | 1 | 2 | 3 => revert e; decide
    | _ + 4 => cases he
  · have hd : ∀ t : PTask Nat, t ∈ [PTask.done] → t.isDone = true := by
      intro t ht
      rw [List.mem_singleton.1 ht]
      rfl
    have hj1 : ∀ b ∈ [(⟨[.done], []⟩ : Block Nat)], (∀ t ∈ b.now, t.isDone = true) ∧ b.later = [] := by
      intro b hb
      rw [List.mem_singleton.1 hb]
      exact ⟨hd, rfl⟩
    have hj2 : ∀ b ∈ [(⟨[.done], []⟩ : Block Nat), ⟨[.done], []⟩], (∀ t ∈ b.now, t.isDone = true) ∧ b.later = [] := by
      intro b hb
      rcases List.mem_cons.1 hb with rfl | hb
      · exact ⟨hd, rfl⟩
      · exact hj1 b hb
    refine .step (.take rfl [[0]] rfl (by decide)) ?_
    refine play_runs (s' := .round [0, 1, 2, 255] [[1, 2]] 0 [⟨[.done], []⟩])
      [.next 0, .next 0, .inner 0 0, .inner 0 0, .inner 0 0, .next 0, .inner 0 0, .inner 0 0, .inner 0 0] rfl ?_
    refine .step (.join hj1) ?_
    rw [show skipEmpty [[1, 2]] 0 = 0 by simp [skipEmpty]]
    refine .step (.take rfl [[1], [2]] rfl (by decide)) ?_
    refine play_runs (s' := .round [0, 1, 2, 7] [[3, 3]] 0 [⟨[.done], []⟩, ⟨[.done], []⟩])
      [.next 0, .next 0, .inner 0 0, .next 1, .next 1, .inner 1 0, .inner 0 0, .inner 0 0, .inner 1 0, .inner 1 0] rfl ?_
    refine .step (.join hj2) ?_
    rw [show skipEmpty [[3, 3]] 0 = 0 by simp [skipEmpty]]
    refine .step (.take rfl [[3], [3]] rfl (by decide)) ?_
    refine play_runs (s' := .round [0, 1, 2, 7] [[]] 0 [⟨[.done], []⟩, ⟨[.done], []⟩]) [.next 0, .next 1] rfl ?_
    refine .step (.join hj2) ?_
    rw [show skipEmpty [[]] 0 = 1 by simp [skipEmpty]]
    exact .done (.stop (by decide))
  · intro h
    have hw : WWalk exRace (·.2) 0 3 2 :=
      .snoc (e := (3, 1)) (.snoc (e := (1, 1)) .nil (by decide)) (by decide)
    obtain ⟨x, hx⟩ := hw.reachable.exists_least (·.2)
    have h1 := (h.2 3 (by decide)).1 x hx
    have h2 := hx.2 2 hw
    have h3 : (7 : Nat) = x := by simpa using h1
    omega

/-- An undirected graph meets the hypotheses of the two positive theorems and of the negative one. -/
example : ∃ st, bInit exW 255 0 = .ok st ∧ Sure (BStep shape8 (task8 exW (·.2) 255 3)) (Distances exW (·.2) 0 255) st :=
  delta_stepping_v8_correct exW _ 0 9 255 3 exW_usable (by decide) (by decide)

example : ∃ st, bInit exW 255 0 = .ok st ∧ Sure (BStep shape10 (task9 exW (·.2) 255 3 (some false))) (Distances exW (·.2) 0 255) st :=
  delta_stepping_v9_v10_v11_partial _ exW _ 0 9 255 3 exW_usable (by decide) (by decide)

/-- The example graph has the edge 2 → 0. -/
example : ∃ st, bInit exW 255 0 = .ok st ∧ (∀ o, Runs (BStep shape11 (task9 exW (·.2) 255 3 none)) st o → o = .error .uninitialised) ∧
    Runs (BStep shape11 (task9 exW (·.2) 255 3 none)) st (.error .uninitialised) :=
  delta_stepping_v9_v10_v11_uninitialised _ exW _ 0 9 255 3 exW_usable (by decide) (by decide) (u := 2)
    ⟨1, .snoc .nil (by decide)⟩ (by decide)

end NW.DeltaExp
