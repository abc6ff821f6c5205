import Verif.Lemmas.BfsDirExp

/-! # Properties of the experimental direction-optimizing searches: C84 -/

namespace NW.BfsDirExp
open Spec Bfs Dobfs

variable {α : Type}

/-- The bit vector that is read at the next bottom-up round. -/
def seen (ver : Ver) (front curr : List Bool) : List Bool :=
  match ver with
  | .v1 => curr
  | .v2 => front

structure HInv (ver : Ver) (c : Args α) (root l : Nat) (queue : List Nat) (lq : List (List Nat)) (par : List Nat) (front curr : List Bool) : Prop where
  lev : Lev c root l par
  queue : ∀ v, v ∈ queue ↔ IsDist c.out root v l
  bins : lq = List.replicate c.bins []
  marks : MarksWithin c root l (seen ver front curr)

structure BHInv (ver : Ver) (c : Args α) (root l awake : Nat) (lq : List (List Nat)) (par : List Nat) (front curr : List Bool) : Prop where
  lev : Lev c root l par
  awake : 0 < awake
  alive : ∃ v, IsDist c.out root v l
  bins : lq = List.replicate c.bins []
  marks : MarksWithin c root l (seen ver front curr)
  all : ∀ v, IsDist c.out root v l → (seen ver front curr)[v]? = some true

theorem swapV_seen (ver : Ver) (front curr : List Bool) : seen ver (swapV ver front curr).1 (swapV ver front curr).2 = curr := by
  cases ver <;> rfl

theorem bitsV_eq (ver : Ver) (front curr : List Bool) : bitsV ver front curr = curr := by
  cases ver <;> rfl

theorem buStart_eq {ver : Ver} {c : Args α} (h : c.inn.length = c.out.length) (awake : Nat) (queue : List Nat) (lq : List (List Nat)) (par : List Nat)
    (front curr : List Bool) (edges : Nat) :
    buStart ver c awake queue lq par front curr edges =
      .bu (List.replicate c.out.length .start) awake queue lq par (seen ver front curr) (List.replicate c.out.length false) edges := by
  cases ver <;> simp [buStart, seen, h]

theorem flatten_replicate_nil (n : Nat) : (List.replicate n ([] : List Nat)).flatten = [] := by
  induction n with
  | zero => rfl
  | succ n ih => simp [List.replicate_succ]

theorem headStep_td {ver : Ver} {c : Args α} {queue : List Nat} {lq : List (List Nat)} {par : List Nat} {front curr : List Bool} {edges scout : Nat}
    (h1 : queue ≠ []) (h2 : c.alpha ≠ 0) (h3 : ¬ scout > edges / c.alpha) :
    headStep ver c queue lq par front curr edges scout = (do
      let ts ← queue.mapM (mkTask c)
      return .inl (.td ts queue lq par front curr ((edges + 2 ^ 64 - scout) % 2 ^ 64))) := by
  unfold headStep
  rw [if_neg h1, if_neg h2, if_neg h3]

theorem all_sure {ver : Ver} {c : Args α} {root threads : Nat} (hc : Usable c root) (hth : 0 < threads ∧ threads ≤ c.bins) (k : Nat) :
    ∀ l, c.out.length - l = k →
    (∀ awake queue lq par front curr edges, BHInv ver c root l awake lq par front curr →
      Sure (Step ver c threads) (Post c root) (.buHead awake queue lq par front curr edges)) ∧
    (∀ queue lq par front curr edges scout, HInv ver c root l queue lq par front curr →
      Sure (Step ver c threads) (Post c root) (.head queue lq par front curr edges scout)) := by
  induction k using Nat.strongRecOn with
  | ind k ih =>
    intro l hk
    have hnext : ∀ {v}, IsDist c.out root v l → _ := fun {v} hv =>
      ih (c.out.length - (l + 1)) (by have := hv.lt_length hc.inRange hc.rootLt; omega) (l + 1) rfl
    have hbu : ∀ awake queue lq par front curr edges, BHInv ver c root l awake lq par front curr →
        Sure (Step ver c threads) (Post c root) (.buHead awake queue lq par front curr edges) := by
      intro awake queue lq par front curr edges hI
      obtain ⟨v₀, hv₀⟩ := hI.alive
      refine sure_all ⟨_, .buHead⟩ ?_
      intro o ho
      cases ho
      right
      refine ⟨_, rfl, ?_⟩
      rw [buStart_eq hc.transpose.1]
      refine bu_phase (l := l) hc ?_ _ _ _ ?_
      · intro ts par' curr' hB hf
        obtain ⟨h1, h2, h3⟩ := hB.joined hc hf
        have hmw : MarksWithin c root (l + 1) curr' := ⟨hB.lenC, fun v hv => ((h2 v).1 hv).near⟩
        obtain ⟨p₀, hp₀⟩ := exists_listing hth.1 (bitsV ver (seen ver front curr) curr')
        refine sure_all ⟨_, .buJoin hf hp₀ (List.Perm.refl _)⟩ ?_
        intro o ho
        cases ho with
        | buStep hi hd => have := hf _ (List.mem_of_getElem? hi); rw [hd] at this; cases this
        | @buJoin _ _ _ _ _ _ _ _ p ord _ hp hord =>
          have hpos : 0 < ts.count (.done true) → Sure (Step ver c threads) (Post c root) (.buHead (ts.count (.done true)) queue lq par'
              (swapV ver (seen ver front curr) curr').1 (swapV ver (seen ver front curr) curr').2 edges) := by
            intro hp
            refine (hnext hv₀).1 _ _ _ _ _ _ _ ⟨h1, hp, ?_, hI.bins, by rw [swapV_seen]; exact hmw, fun v hv => by rw [swapV_seen]; exact (h2 v).2 hv⟩
            by_contra hno
            have := h3.2 hno
            omega
          unfold buAfter
          by_cases c1 : ts.count (.done true) ≥ awake
          · rw [if_pos c1]
            exact Or.inr ⟨_, rfl, hpos (by have := hI.awake; omega)⟩
          · rw [if_neg c1, if_neg (by have := hc.betaPos; omega)]
            by_cases c2 : ts.count (.done true) > c.out.length / c.beta
            · rw [if_pos c2]
              exact Or.inr ⟨_, rfl, hpos (Nat.lt_of_le_of_lt (Nat.zero_le _) c2)⟩
            · rw [if_neg c2]
              by_cases c3 : ver = .v1 ∧ ts.count (.done true) = 0
              · rw [if_pos c3]
                refine Or.inl ⟨_, rfl, h1.final hc ?_⟩
                rintro ⟨v, hv⟩
                obtain ⟨w, hw⟩ := hv.down (j := l + 1) (by omega)
                exact h3.1 c3.2 ⟨w, hw⟩
              · rw [if_neg c3]
                obtain ⟨lq', e1, e2, e3⟩ := bitmapToQueue_run (lq := lq) (by rw [hI.bins]; simpa using hth.2) p hp.2
                rw [e1, res_bind_ok, flush_run queue (by rw [e2]; exact hord), res_bind_ok]
                refine Or.inr ⟨_, rfl, (hnext hv₀).2 _ _ _ _ _ _ _ ⟨h1, ?_, by rw [e2, hI.bins]; simp, by rw [swapV_seen]; exact hmw⟩⟩
                intro v
                rw [e3, listing_mem hp, bitsV_eq, h2, hI.bins, flatten_replicate_nil]
                simp
      · refine ⟨by simp, hI.lev.1, by simp, hI.marks, hI.all, ?_⟩
        intro u t pu cu h1 h2 h3
        have h1' := List.mem_of_getElem? h1
        have h3' := List.mem_of_getElem? h3
        rw [(List.mem_replicate.1 h1').2, (List.mem_replicate.1 h3').2]
        exact ⟨rfl, hI.lev.2 u pu h2⟩
    refine ⟨hbu, ?_⟩
    intro queue lq par front curr edges scout hH
    refine sure_all ⟨_, .head⟩ ?_
    intro o ho
    cases ho
    by_cases hq : queue = []
    · left
      unfold headStep
      rw [if_pos hq]
      refine ⟨_, rfl, hH.lev.final hc ?_⟩
      rintro ⟨v, hv⟩
      obtain ⟨w, hw⟩ := hv.down (j := l) (by omega)
      have := (hH.queue w).2 hw
      rw [hq] at this; cases this
    right
    obtain ⟨v₀, hv₀'⟩ := List.exists_mem_of_ne_nil _ hq
    have hv₀ := (hH.queue v₀).1 hv₀'
    by_cases c1 : scout > edges / c.alpha
    · obtain ⟨bits, h1, h2, h3⟩ := fill_curr hc queue (fun v hv => (hH.queue v).1 hv) _ hH.marks
      have hall : ∀ v, IsDist c.out root v l → bits[v]? = some true := fun v hv => h3 v ((hH.queue v).2 hv)
      unfold headStep
      rw [if_neg hq, if_neg (by have := hc.alphaPos; omega), if_pos c1]
      cases ver with
      | v1 =>
        simp only [queueToBitmap]
        rw [show List.foldlM (fun b u => vset b u true) curr queue = .ok bits from h1, res_bind_ok]
        exact ⟨_, rfl, hbu _ _ _ _ _ _ _ ⟨hH.lev, List.length_pos_of_mem hv₀', ⟨v₀, hv₀⟩, hH.bins, h2, hall⟩⟩
      | v2 =>
        simp only [queueToBitmap]
        rw [show List.foldlM (fun b u => vset b u true) front queue = .ok bits from h1, res_bind_ok]
        exact ⟨_, rfl, hbu _ _ _ _ _ _ _ ⟨hH.lev, List.length_pos_of_mem hv₀', ⟨v₀, hv₀⟩, hH.bins, h2, hall⟩⟩
    · have hts : queue.mapM (mkTask c) = .ok (queue.map fun u => { u := u, rest := c.out.getD u [], pc := .idle, count := 0 }) := by
        refine mapM_ok_of_forall ?_
        intro u hu
        have := ((hH.queue u).1 hu).1.lt hc.inRange hc.rootLt
        unfold mkTask
        rw [vget_row this, res_bind_ok]; rfl
      rw [headStep_td hq (by have := hc.alphaPos; omega) c1, hts, res_bind_ok]
      refine ⟨_, rfl, ?_⟩
      refine td_phase (l := l) hc hth ?_ _ _ _ ?_
      · intro ts lq' par' hI hf
        obtain ⟨h1, h2⟩ := hI.joined hf
        refine sure_all ⟨_, .tdJoin hf (List.Perm.refl _)⟩ ?_
        intro o ho
        cases ho with
        | tdStep hi hd => exact absurd (hf _ (List.mem_of_getElem? hi)) hd
        | tdJoin _ hord =>
          right
          rw [flush_run queue hord]
          refine ⟨_, rfl, (hnext hv₀).2 _ _ _ _ _ _ _ ⟨h1, h2, by simp [hI.bins], hH.marks.1, ?_⟩⟩
          intro v hv
          exact near_succ.2 (Or.inl (hH.marks.2 v hv))
      · refine ⟨hH.lev.1, ?_, ?_, ?_, by simp [hH.bins], ?_, ?_⟩
        · intro u pu hu
          obtain ⟨h1, h2⟩ := hH.lev.2 u pu hu
          exact ⟨h1.2, fun h => ⟨near_succ.2 (Or.inl (h1.1 h)), h2 h⟩⟩
        · intro i t hi
          rw [List.getElem?_map] at hi
          cases hq : queue[i]? with
          | none => rw [hq] at hi; cases hi
          | some u =>
            rw [hq] at hi
            simp at hi
            subst hi
            refine ⟨(hH.queue u).1 (List.mem_of_getElem? hq), ⟨[], by simp [TdPc.pending, nbrs], by simp⟩, by simp⟩
        · intro u hu
          obtain ⟨i, hi⟩ := List.getElem?_of_mem ((hH.queue u).2 hu)
          exact ⟨i, _, by rw [List.getElem?_map, hi]; rfl, rfl⟩
        · intro v pv h1 h2 h3
          exact absurd ((hH.lev.2 v pv h1).1.1 h2) h3.not_near
        · intro v hv
          rw [hH.bins, flatten_replicate_nil] at hv
          cases hv

theorem start {ver : Ver} {c : Args α} {root threads : Nat} (hc : Usable c root) (hth : 0 < threads ∧ threads ≤ c.bins) {garbage : List Bool}
    (hm : MarksWithin c root 0 (seen ver garbage (List.replicate c.out.length false))) :
    ∃ s, init c root garbage = .ok s ∧ Sure (Step ver c threads) (Post c root) s := by
  have hr := hc.rootLt
  refine ⟨.head [root] (List.replicate c.bins []) ((List.replicate c.out.length c.inf).set root root) garbage
      (List.replicate c.out.length false) c.M (c.out.getD root []).length, ?_, ?_⟩
  · unfold init
    rw [vget_row hr, res_bind_ok, vset_of_lt (by simpa using hr), res_bind_ok]; rfl
  · refine (all_sure hc hth _ 0 rfl).2 _ _ _ _ _ _ _ ⟨⟨by simp, ?_⟩, ?_, rfl, hm⟩
    · intro u pu hu
      rcases getElem?_set_cases hu with ⟨rfl, rfl⟩ | ⟨hne, hu⟩
      · refine ⟨⟨fun _ => ⟨0, Nat.le_refl _, IsDist.zero _ _⟩, fun _ => ?_⟩, fun _ => by unfold Good; rw [if_pos rfl]⟩
        have := hc.small; omega
      · have hu' := (List.mem_replicate.1 (List.mem_of_getElem? hu)).2
        refine ⟨⟨fun h => absurd hu' h, ?_⟩, fun h => absurd hu' h⟩
        rintro ⟨d, hd, hdist⟩
        obtain rfl : d = 0 := by omega
        exact absurd hdist.of_zero.symm hne
    · intro v
      rw [List.mem_singleton]
      exact ⟨by rintro rfl; exact IsDist.zero _ _, fun h => h.of_zero⟩

/-- C84. With no more threads than bins, for every usable input, whatever is in the uninitialised bit vector and whatever order the parallel steps take, the
experimental `bfs_v1` ends without fault and returns a breadth-first search tree. -/
theorem bfs_v1_partial (c : Args α) (root threads : Nat) (hc : Usable c root) (hth : 0 < threads ∧ threads ≤ c.bins) (garbage : List Bool) :
    ∃ s, init c root garbage = .ok s ∧
      Sure (Step .v1 c threads) (fun par => par.length = c.out.length ∧ BfsTree c.out root (parentOf c.inf par)) s := by
  refine start hc hth ⟨by simp [seen], ?_⟩
  intro v hv
  have := (List.mem_replicate.1 (List.mem_of_getElem? hv)).2
  cases this

/-- C84. The same of `bfs_v2`, provided that the uninitialised bit vector happens to hold no bit but the root's. -/
theorem bfs_v2_partial (c : Args α) (root threads : Nat) (hc : Usable c root) (hth : 0 < threads ∧ threads ≤ c.bins) (garbage : List Bool)
    (hlen : garbage.length = c.out.length) (hg : ∀ v : Nat, garbage[v]? = some true → v = root) :
    ∃ s, init c root garbage = .ok s ∧
      Sure (Step .v2 c threads) (fun par => par.length = c.out.length ∧ BfsTree c.out root (parentOf c.inf par)) s := by
  refine start hc hth ⟨hlen, ?_⟩
  intro v hv
  rw [hg v hv]
  exact (IsDist.zero _ _).near

/-! ## What goes wrong -/

/-- One scheduler's choice: at a head, nothing; in a round, a task and a thread, or the join, with the lists of `bitmap_to_queue`. -/
inductive Move where
  | go
  | task (i w : Nat)
  | join (p : List (Nat × Nat))

instance (t : TdTask α) : Decidable t.finished :=
  match h1 : t.rest, h2 : t.pc with
  | [], .idle => .isTrue ⟨h1, h2⟩
  | _ :: _, _ => .isFalse fun h => by have := h.1; rw [h1] at this; cases this
  | [], .tryCas _ => .isFalse fun h => by have := h.2; rw [h2] at this; cases this
  | [], .push _ => .isFalse fun h => by have := h.2; rw [h2] at this; cases this

instance (threads : Nat) (bits : List Bool) (p : List (Nat × Nat)) : Decidable (Listing threads bits p) := by
  unfold Listing; infer_instance

/-- Executes a choice. -/
def move (ver : Ver) (c : Args α) (threads : Nat) : State α → Move → Option (Res (State α ⊕ List Nat))
  | .head queue lq par front curr edges scout, .go => some (headStep ver c queue lq par front curr edges scout)
  | .td ts queue lq par front curr edges, .task i w => match ts[i]? with
    | some t => if t.finished ∨ threads ≤ w then none else
      some ((tdTask c w lq par t).map fun x => .inl (.td (ts.set i x.2.2) queue x.1 x.2.1 front curr edges))
    | none => none
  | .td ts queue lq par front curr edges, .join _ => if ∀ t ∈ ts, t.finished then
      some ((flush (List.range lq.length) lq queue).map fun x => .inl (.head x.2 x.1 par front curr edges (ts.map TdTask.count).sum)) else none
  | .buHead awake queue lq par front curr edges, .go => some (.ok (.inl (buStart ver c awake queue lq par front curr edges)))
  | .bu ts old queue lq par front curr edges, .task i _ => match ts[i]? with
    | some t => if t.isDone then none else
      some ((buTask c par front curr i t).map fun x => .inl (.bu (ts.set i x.2.2) old queue lq x.1 front x.2.1 edges))
    | none => none
  | .bu ts old queue lq par front curr edges, .join p => if (∀ t ∈ ts, t.isDone = true) ∧ Listing threads (bitsV ver front curr) p then
      some (buAfter ver c p (List.range lq.length) (ts.count (.done true)) old queue lq par (swapV ver front curr).1 (swapV ver front curr).2 edges) else none
  | _, _ => none

theorem move_step {ver : Ver} {c : Args α} {threads : Nat} {s : State α} {m : Move} {o : Res (State α ⊕ List Nat)} (h : move ver c threads s m = some o) :
    Step ver c threads s o := by
  unfold move at h
  split at h
  · cases h; exact .head
  · split at h
    · rename_i hi
      split at h
      · cases h
      · rename_i hn
        push Not at hn
        cases h
        exact .tdStep hi hn.1 (Nat.lt_of_not_le hn.2)
    · cases h
  · split at h
    · rename_i hf; cases h; exact .tdJoin hf (List.Perm.refl _)
    · cases h
  · cases h; exact .buHead
  · split at h
    · rename_i hi
      split at h
      · cases h
      · rename_i hn
        cases h
        exact .buStep hi (by simpa using hn)
    · cases h
  · split at h
    · rename_i hf; cases h; exact .buJoin hf.1 hf.2 (List.Perm.refl _)
    · cases h
  · cases h

/-- Executes choices to the end. -/
def moves (ver : Ver) (c : Args α) (threads : Nat) : List Move → State α → Option (Res (List Nat))
  | [], _ => none
  | m :: ms, s => match move ver c threads s m with
    | some (.ok (.inl s')) => moves ver c threads ms s'
    | some (.ok (.inr r)) => some (.ok r)
    | some (.error f) => some (.error f)
    | none => none

theorem moves_runs {ver : Ver} {c : Args α} {threads : Nat} {ms : List Move} {s : State α} {o : Res (List Nat)} (h : moves ver c threads ms s = some o) :
    Runs (Step ver c threads) s o := by
  induction ms generalizing s with
  | nil => cases h
  | cons m ms ih =>
    unfold moves at h
    split at h
    · rename_i s' hm
      exact .step (move_step hm) (ih h)
    · rename_i r hm
      cases h
      exact .done (move_step hm)
    · rename_i f hm
      cases h
      exact .fault (move_step hm)
    · cases h

/-- Two edges, 0→1 and 2→3. -/
def twoEdges : Args Unit := { out := [[(1, ())], [], [(3, ())], []], inn := [[], [(0, ())], [], [(2, ())]], bins := 4, M := 2, alpha := 15, beta := 18, inf := 9 }

/-- The inputs are usable. -/
theorem twoEdges_usable : Usable twoEdges 0 where
  inRange := by decide
  transpose := (isTranspose_iff _ _ (by decide) (by decide)).2 (by decide)
  rootLt := by decide
  small := by decide
  binsPos := by decide
  alphaPos := by decide
  betaPos := by decide

/-- C84, against the property: the experimental `bfs_v2` reads the bit vector it did not initialise.  Searching from 0 the graph 0→1, 2→3, with the bit of 2
set by chance, it returns 2 as the parent of 3, which cannot be reached from 0. -/
theorem bfs_v2_garbage : ∃ s, init twoEdges 0 [false, false, true, false] = .ok s ∧ Runs (Step .v2 twoEdges 1) s (.ok [0, 0, 9, 2]) ∧
    ¬ Reachable twoEdges.out 0 3 := by
  refine ⟨_, rfl, moves_runs (ms := [.go, .go, .task 0 0, .task 1 0, .task 1 0, .task 1 0, .task 2 0, .task 3 0, .task 3 0, .task 3 0, .join [(1, 0), (3, 0)],
    .go, .task 0 0, .task 1 0, .task 2 0, .task 3 0, .join [], .go]) (by decide +kernel), ?_⟩
  have key : ∀ v k, Walk twoEdges.out 0 v k → v = 0 ∨ v = 1 := by
    intro v k h
    induction h with
    | nil => exact Or.inl rfl
    | snoc _ he ih =>
      rcases ih with rfl | rfl
      · right; simpa [Edge, nbrs, twoEdges] using he
      · simp [Edge, nbrs, twoEdges] at he
  rintro ⟨k, h⟩
  have := key 3 k h
  omega

/-- C84, against the property: with more threads than bins, a thread's index exceeds the queues. -/
theorem bfs_threads_oob (ver : Ver) : ∃ s, init { twoEdges with bins := 1, alpha := 1 } 0 [false, false, false, false] = .ok s ∧
    Runs (Step ver { twoEdges with bins := 1, alpha := 1 } 2) s (.error .outOfBounds) := by
  refine ⟨_, rfl, moves_runs (ms := [.go, .task 0 0, .task 0 0, .task 0 1]) (by cases ver <;> decide +kernel)⟩

theorem buTask_len {c : Args α} {par par' : List Nat} {front curr curr' : List Bool} {u : Nat} {t t' : BuTask}
    (h : buTask c par front curr u t = .ok (par', curr', t')) : par'.length = par.length := by
  unfold buTask at h
  cases t with
  | start =>
    simp only at h
    cases h1 : vget par u with
    | error f => rw [h1] at h; cases h
    | ok pu =>
      rw [h1, res_bind_ok] at h
      by_cases c1 : pu = c.inf
      · rw [if_pos c1] at h
        cases h2 : vget c.inn u with
        | error f => rw [h2] at h; cases h
        | ok r =>
          rw [h2, res_bind_ok] at h
          cases h3 : scan front r with
          | error f => rw [h3] at h; cases h
          | ok f =>
            rw [h3, res_bind_ok] at h
            cases f <;> cases h <;> rfl
      · rw [if_neg c1] at h; cases h; rfl
  | found v =>
    simp only at h
    cases h1 : vset curr u true with
    | error f => rw [h1] at h; cases h
    | ok cu => rw [h1, res_bind_ok] at h; cases h; rfl
  | marked v =>
    simp only at h
    rcases Nat.lt_or_ge u par.length with hu | hu
    · rw [vset_of_lt hu, res_bind_ok] at h; cases h; simp
    · rw [vset_of_ge hu] at h; cases h
  | done b => cases h; rfl

/-- A bottom-up round with a task past the last vertex never ends. -/
theorem past_end {c : Args α} {threads : Nat} {s : State α} {o : Res (List Nat)} (hr : Runs (Step .v2 c threads) s o) :
    ∀ ts old q lq par front curr edges, s = .bu ts old q lq par front curr edges → ts[par.length]? = some .start → ∃ f, o = .error f := by
  have hstep : ∀ {ts old q lq par front curr edges o}, Step .v2 c threads (.bu ts old q lq par front curr edges) o → ts[par.length]? = some .start →
      (∃ f, o = .error f) ∨ ∃ ts' par' curr', o = .ok (.inl (.bu ts' old q lq par' front curr' edges)) ∧ ts'[par'.length]? = some .start := by
    intro ts old q lq par front curr edges o ho hts
    cases ho with
    | @buStep _ _ _ _ _ _ _ _ i t hi hf =>
      cases h1 : buTask c par front curr i t with
      | error f => exact Or.inl ⟨f, rfl⟩
      | ok x =>
        obtain ⟨par', curr', t'⟩ := x
        have hl := buTask_len h1
        refine Or.inr ⟨_, _, _, rfl, ?_⟩
        simp only
        rw [hl]
        by_cases ci : i = par.length
        · subst ci
          rw [hts] at hi; cases hi
          unfold buTask at h1
          simp only at h1
          rw [vget_of_ge (Nat.le_refl _)] at h1
          cases h1
        · rw [getElem?_set_other ci]; exact hts
    | buJoin hf => have := hf _ (List.mem_of_getElem? hts); cases this
  induction hr with
  | done h =>
    rintro ts old q lq par front curr edges rfl hts
    rcases hstep h hts with ⟨f, h⟩ | ⟨_, _, _, h, _⟩ <;> cases h
  | fault h => intros; exact ⟨_, rfl⟩
  | step h _ ih =>
    rintro ts old q lq par front curr edges rfl hts
    rcases hstep h hts with ⟨f, h⟩ | ⟨ts', par', curr', h, hts'⟩
    · cases h
    · cases h
      exact ih _ _ _ _ _ _ _ _ rfl hts'

/-- C84, against the property: if `end()` of the transpose lies past its last vertex, as it does when the transpose is built from an edge list, and the search begins bottom-up, then
`bfs_v2` never returns, and some run of it reads past the end of `parents`. -/
theorem bfs_v2_end_faults (c : Args α) (root threads : Nat) (garbage : List Bool) (hr : root < c.out.length) (hg : garbage.length = c.out.length)
    (ha : 0 < c.alpha) (hbig : (c.out.getD root []).length > c.M / c.alpha) (hstop : c.out.length < c.inn.length) :
    ∃ s, init c root garbage = .ok s ∧ (∀ par, ¬ Runs (Step .v2 c threads) s (.ok par)) ∧ Runs (Step .v2 c threads) s (.error .outOfBounds) := by
  have hh : ∀ par curr, headStep .v2 c [root] (List.replicate c.bins []) par garbage curr c.M (c.out.getD root []).length =
      .ok (.inl (.buHead 1 [root] (List.replicate c.bins []) par (garbage.set root true) curr c.M)) := by
    intro par curr
    unfold headStep
    rw [if_neg (by simp), if_neg (by omega), if_pos hbig]
    simp only [queueToBitmap, List.foldlM_cons, List.foldlM_nil]
    rw [vset_of_lt (by omega), res_bind_ok]; rfl
  refine ⟨.head [root] (List.replicate c.bins []) ((List.replicate c.out.length c.inf).set root root) garbage
      (List.replicate c.out.length false) c.M (c.out.getD root []).length, ?_, ?_, ?_⟩
  · unfold init
    rw [vget_row hr, res_bind_ok, vset_of_lt (by simpa using hr), res_bind_ok]; rfl
  · intro par hR
    have hne : ∀ s' o, Runs (Step .v2 c threads) s' o → ∀ awake q lq par front curr edges, s' = .buHead awake q lq par front curr edges →
        par.length = c.out.length → ∃ f, o = .error f := by
      rintro s' o hR awake q lq par front curr edges rfl hpl
      cases hR with
      | done h => cases h
      | fault h => exact ⟨_, rfl⟩
      | step h hR =>
        cases h
        refine past_end hR _ _ _ _ _ _ _ _ rfl ?_
        rw [List.getElem?_replicate, if_pos (by omega)]
    generalize ho : (Except.ok par : Res (List Nat)) = o at hR
    cases hR with
    | done h =>
      generalize ho' : (Except.ok (Sum.inr _) : Res (State α ⊕ List Nat)) = o' at h
      cases h
      rw [hh] at ho'; cases ho'
    | fault h => cases ho
    | step h hR =>
      generalize ho' : (Except.ok (Sum.inl _) : Res (State α ⊕ List Nat)) = o' at h
      cases h
      rw [hh] at ho'; cases ho'
      obtain ⟨f, hf⟩ := hne _ _ hR _ _ _ _ _ _ _ rfl (by simp)
      rw [← ho] at hf; cases hf
  · have h0 := Step.head (ver := .v2) (c := c) (threads := threads) (queue := [root]) (lq := List.replicate c.bins []) (par := (List.replicate c.out.length c.inf).set root root)
      (front := garbage) (curr := List.replicate c.out.length false) (edges := c.M) (scout := (c.out.getD root []).length)
    rw [hh] at h0
    refine .step h0 (.step .buHead (.fault ?_))
    have := Step.buStep (ver := .v2) (c := c) (threads := threads) (ts := List.replicate c.inn.length .start) (old := 1) (queue := [root]) (lq := List.replicate c.bins [])
      (par := (List.replicate c.out.length c.inf).set root root) (front := garbage.set root true)
      (curr := List.replicate c.out.length false) (edges := c.M) (i := c.out.length) (t := .start)
      (by rw [List.getElem?_replicate, if_pos hstop]) rfl
    unfold buTask at this
    simp only at this
    rw [vget_of_ge (by simp)] at this
    exact this

/-- C84, against the property: with more threads than queues, a thread whose index is the number of queues may push past the last one: both versions. -/
theorem bfs_threads_fault (ver : Ver) (c : Args α) (root threads : Nat) (garbage : List Bool) (x : Nat × α) (xs : List (Nat × α)) (hx : c.out[root]? = some (x :: xs))
    (hxr : x.1 ≠ root) (hxl : x.1 < c.out.length) (ha : 0 < c.alpha) (hsmall : (x :: xs).length ≤ c.M / c.alpha) (ht : c.bins < threads) :
    ∃ s, init c root garbage = .ok s ∧ Runs (Step ver c threads) s (.error .outOfBounds) := by
  have hr := (List.getElem?_eq_some_iff.1 hx).1
  refine ⟨.head [root] (List.replicate c.bins []) ((List.replicate c.out.length c.inf).set root root) garbage
      (List.replicate c.out.length false) c.M (x :: xs).length, ?_, ?_⟩
  · unfold init
    rw [vget_eq_ok.2 hx, res_bind_ok, vset_of_lt (by simpa using hr), res_bind_ok]; rfl
  · have hp : ((List.replicate c.out.length c.inf).set root root)[x.1]? = some c.inf := by
      rw [getElem?_set_other (Ne.symm hxr), List.getElem?_replicate, if_pos hxl]
    refine .step (s' := .td [{ u := root, rest := x :: xs, pc := .idle, count := 0 }] [root] (List.replicate c.bins [])
      ((List.replicate c.out.length c.inf).set root root) garbage (List.replicate c.out.length false) ((c.M + 2 ^ 64 - (x :: xs).length) % 2 ^ 64)) ?_ ?_
    · have h := Step.head (ver := ver) (c := c) (threads := threads) (queue := [root]) (lq := List.replicate c.bins []) (par := (List.replicate c.out.length c.inf).set root root)
        (front := garbage) (curr := List.replicate c.out.length false) (edges := c.M) (scout := (x :: xs).length)
      unfold headStep at h
      rw [if_neg (by simp), if_neg (by omega), if_neg (by omega)] at h
      have hm : [root].mapM (mkTask c) = .ok [{ u := root, rest := x :: xs, pc := .idle, count := 0 }] := by
        simp only [List.mapM_cons, List.mapM_nil, mkTask]
        rw [vget_eq_ok.2 hx]; rfl
      rw [hm, res_bind_ok] at h
      exact h
    · refine .step (s' := .td [{ u := root, rest := xs, pc := .tryCas x.1, count := 0 }] [root] (List.replicate c.bins [])
        ((List.replicate c.out.length c.inf).set root root) garbage (List.replicate c.out.length false) ((c.M + 2 ^ 64 - (x :: xs).length) % 2 ^ 64)) ?_ ?_
      · have h := Step.tdStep (ver := ver) (c := c) (threads := threads) (ts := [{ u := root, rest := x :: xs, pc := .idle, count := 0 }]) (queue := [root])
          (lq := List.replicate c.bins []) (par := (List.replicate c.out.length c.inf).set root root)
          (front := garbage) (curr := List.replicate c.out.length false) (edges := (c.M + 2 ^ 64 - (x :: xs).length) % 2 ^ 64) (i := 0) (w := c.bins) rfl
          (by simp [TdTask.finished]) ht
        simp only [tdTask, Dobfs.tdTask] at h
        rw [vget_eq_ok.2 hp, res_bind_ok, if_pos rfl] at h
        exact h
      · refine .step (s' := .td [{ u := root, rest := xs, pc := .push x.1, count := 0 }] [root] (List.replicate c.bins [])
          (((List.replicate c.out.length c.inf).set root root).set x.1 root) garbage (List.replicate c.out.length false)
          ((c.M + 2 ^ 64 - (x :: xs).length) % 2 ^ 64)) ?_ (.fault ?_)
        · have h := Step.tdStep (ver := ver) (c := c) (threads := threads) (ts := [{ u := root, rest := xs, pc := .tryCas x.1, count := 0 }]) (queue := [root])
            (lq := List.replicate c.bins []) (par := (List.replicate c.out.length c.inf).set root root)
            (front := garbage) (curr := List.replicate c.out.length false) (edges := (c.M + 2 ^ 64 - (x :: xs).length) % 2 ^ 64) (i := 0) (w := c.bins) rfl
            (by simp [TdTask.finished]) ht
          simp only [tdTask, Dobfs.tdTask] at h
          rw [vget_eq_ok.2 hp, res_bind_ok, if_pos rfl, vset_of_lt (by simpa using hxl), res_bind_ok] at h
          exact h
        · have h := Step.tdStep (ver := ver) (c := c) (threads := threads) (ts := [{ u := root, rest := xs, pc := .push x.1, count := 0 }]) (queue := [root])
            (lq := List.replicate c.bins []) (par := ((List.replicate c.out.length c.inf).set root root).set x.1 root)
            (front := garbage) (curr := List.replicate c.out.length false) (edges := (c.M + 2 ^ 64 - (x :: xs).length) % 2 ^ 64) (i := 0) (w := c.bins) rfl
            (by simp [TdTask.finished]) ht
          simp only [tdTask] at h
          rw [vget_of_ge (by simp)] at h
          exact h

/-- C84. Whatever the order in which `flush` copies the thread-local queues, the queue becomes their concatenation, and they become empty. -/
theorem flush_concatenates (ord : List Nat) (lq : List (List Nat)) (queue : List Nat) (h : ord.Perm (List.range lq.length)) :
    flush ord lq queue = .ok (List.replicate lq.length [], lq.flatten) := flush_run queue h

example : flush [2, 0, 1] [[3, 1], [], [2]] [9, 9, 9, 9, 9] = .ok ([[], [], []], [3, 1, 2]) := by decide

/-- The end one past the last vertex. -/
example : ∃ s, init { twoEdges with inn := twoEdges.inn ++ [[]] } 0 [false, false, false, false] = .ok s ∧
    (∀ par, ¬ Runs (Step .v2 { twoEdges with inn := twoEdges.inn ++ [[]] } 1) s (.ok par)) ∧
    Runs (Step .v2 { twoEdges with inn := twoEdges.inn ++ [[]] } 1) s (.error .outOfBounds) :=
  bfs_v2_end_faults _ 0 1 _ (by decide) (by decide) (by decide) (by decide) (by decide)

/-- Five threads and four queues. -/
example : ∃ s, init { twoEdges with alpha := 1 } 0 [false, false, false, false] = .ok s ∧
    Runs (Step .v1 { twoEdges with alpha := 1 } 5) s (.error .outOfBounds) :=
  bfs_threads_fault .v1 _ 0 5 _ (1, ()) [] rfl (by decide) (by decide) (by decide) (by decide) (by decide)

/-- The hypotheses of `bfs_v1_partial` and `bfs_v2_partial` hold: the graph 0→1, 2→3 with two threads. -/
example : Usable twoEdges 0 ∧ (0 < 2 ∧ 2 ≤ twoEdges.bins) ∧ [true, false, false, false].length = twoEdges.out.length :=
  ⟨twoEdges_usable, by decide, by decide⟩

/-- The example graph with a level of three vertices, with top-down rounds only and with bottom-up rounds. -/
example (alpha : Nat) (h : 0 < alpha) : Usable { out := exG, inn := exT, bins := 4, M := 7, alpha := alpha, beta := 18, inf := 7 } 0 where
  inRange := show InRange exG by decide
  transpose := show IsTranspose exG exT from (isTranspose_iff _ _ (by decide) (by decide)).2 (by decide)
  rootLt := show 0 < exG.length by decide
  small := show exG.length ≤ 7 by decide
  binsPos := show 0 < 4 by decide
  alphaPos := h
  betaPos := show 0 < 18 by decide

end NW.BfsDirExp
