import Verif.Lemmas.PageRankExp

/-! # C91: the experimental PageRank versions that iterate the equations -/

namespace NW.PageRankExp
open NW.PageRank Spec

variable {α : Type}

/-- What may be on the way in a version that computes the contributions at the beginning of a round. -/
def notDone (jac : Bool) (t : PageRank.Task α) : Prop := jac = true → t.isDone = false

/-- The versions with threads and the version where every vertex is a task of its own. -/
def Rel (n : Nat) (jac : Bool) (s : XSt α) (t : St α) : Prop := t = toSt s ∧ Good n (leaves jac) (notDone jac) s

theorem leaves_isDone {jac : Bool} {t : PageRank.Task α} (h : leaves jac t = false) : t.isDone = false := by
  cases jac <;> cases t <;> simp_all [leaves, stored, PageRank.Task.isDone]

theorem notDone_step {jac : Bool} {base d : ℚ} {deg : List Nat} {m : Mem} {i : Nat} {t : PageRank.Task α} {r : PageRank.Task α × Mem}
    (h : taskStep base d deg m i t = .ok r) (hl : leaves jac t = false) : notDone jac r.1 := by
  intro hj
  subst hj
  have := taskStep_next h
  cases t with
  | sum z rest =>
    cases rest with
    | nil => obtain ⟨z, hz⟩ := this; rw [hz]; rfl
    | cons => obtain ⟨z, rest, hz⟩ := this; rw [hz]; rfl
  | store z => obtain ⟨z, hz⟩ := this; rw [hz]; rfl
  | share e => cases hl
  | done e => cases hl

/-- The end of a round, when every task has its score. -/
theorem all_share {n : Nat} {s : XSt α} (hlen : s.tasks.length = n) (h : ∀ t ∈ s.tasks, stored t = true) (hn : ∀ t ∈ s.tasks, t.isDone = false) :
    s.tasks = (List.range n).map fun i => .share (err (s.tasks.getD i (.done 0))) := by
  refine List.ext_getElem (by simp [hlen]) fun i h1 h2 => ?_
  simp only [List.getElem_map, List.getElem_range, List.getD_eq_getElem?_getD, List.getElem?_eq_getElem h1, Option.getD_some]
  have a1 := h _ (List.getElem_mem h1)
  have a2 := hn _ (List.getElem_mem h1)
  generalize s.tasks[i] = t at a1 a2
  cases t with
  | share e => rfl
  | done e => cases a2
  | sum z r => cases a1
  | store z => cases a1

theorem sum_err {ts : List (PageRank.Task α)} (h : ∀ t ∈ ts, t.isDone = true) : (ts.map err).sum = (ts.map PageRank.Task.err).sum := by
  congr 1
  refine List.map_congr_left fun t ht => ?_
  have := h t ht
  cases t with
  | done e => rfl
  | share e => cases this
  | sum z r => cases this
  | store z => cases this

theorem xsim (g : Rows α) (jac : Bool) (cut : List (List Nat) → Prop) (hcut : ∃ bs, cut bs) (hperm : ∀ bs, cut bs → bs.flatten.Perm (List.range g.length))
    (base d threshold : ℚ) (deg : List Nat) (hd : deg.length = g.length) :
    SimPlus (XStep g g.length jac cut (taskStep base d deg) deg threshold) (Step g base d deg threshold) (Rel g.length jac) := by
  constructor
  · rintro s _ ⟨rfl, hg⟩
    by_cases c : ∀ b ∈ s.bs, b = []
    · obtain ⟨bs, hb⟩ := hcut
      exact ⟨_, .join c bs hb⟩
    · simp only [not_forall] at c
      obtain ⟨b, hb, c⟩ := c
      obtain ⟨k, hk⟩ := List.getElem?_of_mem hb
      cases b with
      | nil => exact absurd rfl c
      | cons i rest =>
        cases ht : s.tasks[i]? with
        | none => exact ⟨_, .missing hk ht⟩
        | some t => exact ⟨_, .task hk ht⟩
  · rintro s _ o ⟨rfl, hg⟩ hs
    cases hs with
    | @task k i rest t hk ht =>
      have hin : i ∈ s.bs.flatten := (flatten_split hk).symm.subset (by simp)
      have hl := (hg.holds i t ht).1 hin
      refine ⟨_, _, .refl _, .task (s := toSt s) (i := i) ht (leaves_isDone hl), ?_⟩
      show Match _ ((taskStep base d deg s.mem i t).map _) ((taskStep base d deg s.mem i t).map _)
      cases hr : taskStep base d deg s.mem i t with
      | error f => exact .fault f
      | ok r =>
        obtain ⟨e1, e2⟩ := taskStep_len hr
        exact .next ⟨rfl, hg.step hk e1 e2 (notDone_step hr hl)⟩
    | @missing k i rest hk ht =>
      have hin : i ∈ s.bs.flatten := (flatten_split hk).symm.subset (by simp)
      have := hg.lt i hin
      rw [← hg.l3] at this
      rw [List.getElem?_eq_getElem this] at ht
      cases ht
    | join hb bs' hc =>
      have hall := hg.all hb
      cases jac with
      | false =>
        have hdone : ∀ t ∈ s.tasks, t.isDone = true := fun t ht => by simpa [leaves] using hall t ht
        refine ⟨_, _, .refl _, .join (s := toSt s) hdone, ?_⟩
        unfold xEnd endRound
        rw [sum_err hdone]
        show Match _ (if (s.tasks.map PageRank.Task.err).sum < threshold then _ else _) (.ok (if (s.tasks.map PageRank.Task.err).sum < threshold then _ else _))
        split
        · exact .fin _
        · show Match _ (match s.left with | 0 => _ | k + 1 => _) (.ok (match s.left with | 0 => _ | k + 1 => _))
          split
          · exact .fin _
          · exact .next ⟨rfl, Good.fresh hg.l1 hg.l2 (hperm _ hc) (fun _ => rfl) fun _ h => by cases h⟩
      | true =>
        have hst : ∀ t ∈ s.tasks, stored t = true := fun t ht => by simpa [leaves] using hall t ht
        have hnd : ∀ t ∈ s.tasks, t.isDone = false := fun t ht => hg.oks t ht rfl
        have hts := all_share hg.l3 hst hnd
        have sw := share_sweep (g := g) (base := base) (d := d) (threshold := threshold) (deg := deg) (n := g.length) s.left s.rounds s.mem.rank s.mem.contrib
          (fun i => err (s.tasks.getD i (.done 0))) hg.l1 hd hg.l2
        rw [← hts] at sw
        refine ⟨_, _, sw, .join ?_, ?_⟩
        · intro t ht
          obtain ⟨i, -, rfl⟩ := List.mem_map.1 ht
          rfl
        · have e1 : (s.tasks.map err).sum = (((List.range g.length).map fun i => (PageRank.Task.done (err (s.tasks.getD i (.done 0))) : PageRank.Task α)).map
              PageRank.Task.err).sum := by
            conv_lhs => rw [hts]
            rw [List.map_map, List.map_map]; rfl
          unfold xEnd endRound
          rw [e1]
          dsimp only
          split
          · exact .fin _
          · cases s.left with
            | zero => exact .fin _
            | succ k =>
              dsimp only
              rw [if_pos rfl, shares_ok hg.l1 hd, res_bind_ok]
              exact .next ⟨rfl, Good.fresh hg.l1 (by simp) (hperm _ hc) (fun _ => rfl) fun _ h => rfl⟩

/-! ## page_rank_v6 -/

/-- The contributions are being added up, or have been. -/
def adding (t : PageRank.Task α) : Prop := stored t = false

def Rel6 (n : Nat) (s : XSt α) (t : St α) : Prop := t = toSt s ∧ Good n summed adding s

theorem summed_isDone {t : PageRank.Task α} (h : summed t = false) : t.isDone = false := by
  cases t <;> first | rfl | cases h

theorem adding_step {base d : ℚ} {deg : List Nat} {m : Mem} {i : Nat} {t : PageRank.Task α} {r : PageRank.Task α × Mem}
    (h : taskStep base d deg m i t = .ok r) (hl : summed t = false) : adding r.1 := by
  have := taskStep_next h
  cases t with
  | sum z rest =>
    cases rest with
    | nil => obtain ⟨z, hz⟩ := this; rw [hz]; rfl
    | cons => obtain ⟨z, rest, hz⟩ := this; rw [hz]; rfl
  | store z => cases hl
  | share e => cases hl
  | done e => cases hl

theorem all_store {n : Nat} {s : XSt α} (hlen : s.tasks.length = n) (h : ∀ t ∈ s.tasks, summed t = true) (hn : ∀ t ∈ s.tasks, adding t) :
    s.tasks = (List.range n).map fun i => .store (zOf (s.tasks.getD i (.done 0))) := by
  refine List.ext_getElem (by simp [hlen]) fun i h1 h2 => ?_
  simp only [List.getElem_map, List.getElem_range, List.getD_eq_getElem?_getD, List.getElem?_eq_getElem h1, Option.getD_some]
  have a1 := h _ (List.getElem_mem h1)
  have a2 := hn _ (List.getElem_mem h1)
  generalize s.tasks[i] = t at a1 a2
  cases t with
  | share e => cases a2
  | done e => cases a2
  | sum z r => cases a1
  | store z => rfl

theorem sim6 (g : Rows α) (base d threshold : ℚ) (deg : List Nat) (hd : deg.length = g.length) :
    SimPlus (Step6 g base d deg threshold) (Step g base d deg threshold) (Rel6 g.length) := by
  constructor
  · rintro s _ ⟨rfl, hg⟩
    by_cases c : ∀ b ∈ s.bs, b = []
    · exact ⟨_, .join c [List.range g.length] (by simp [stretches])⟩
    · simp only [not_forall] at c
      obtain ⟨b, hb, c⟩ := c
      obtain ⟨k, hk⟩ := List.getElem?_of_mem hb
      cases b with
      | nil => exact absurd rfl c
      | cons i rest =>
        have hin : i ∈ s.bs.flatten := (flatten_split hk).symm.subset (by simp)
        have := hg.lt i hin
        rw [← hg.l3] at this
        exact ⟨_, .task hk (List.getElem?_eq_getElem this)⟩
  · rintro s _ o ⟨rfl, hg⟩ hs
    cases hs with
    | @task k i rest t hk ht =>
      have hin : i ∈ s.bs.flatten := (flatten_split hk).symm.subset (by simp)
      have hl := (hg.holds i t ht).1 hin
      refine ⟨_, _, .refl _, .task (s := toSt s) (i := i) ht (summed_isDone hl), ?_⟩
      show Match _ ((taskStep base d deg s.mem i t).map _) ((taskStep base d deg s.mem i t).map _)
      cases hr : taskStep base d deg s.mem i t with
      | error f => exact .fault f
      | ok r =>
        obtain ⟨e1, e2⟩ := taskStep_len hr
        exact .next ⟨rfl, hg.step hk e1 e2 (adding_step hr hl)⟩
    | join hb bs' hc =>
      have hall := hg.all hb
      have hts := all_store hg.l3 hall hg.oks
      have sw := store_sweep (g := g) (base := base) (d := d) (threshold := threshold) (deg := deg) (n := g.length) s.left s.rounds s.mem.rank s.mem.contrib
        (fun i => zOf (s.tasks.getD i (.done 0))) hg.l1
      rw [← hts] at sw
      have sw2 := share_sweep (g := g) (base := base) (d := d) (threshold := threshold) (deg := deg) (n := g.length) s.left s.rounds
        ((List.range g.length).map fun i => base + d * zOf (s.tasks.getD i (.done 0))) s.mem.contrib
        (fun i => |(base + d * zOf (s.tasks.getD i (.done 0))) - s.mem.rank.getD i 0|) (by simp) hd hg.l2
      have hrank : (s.tasks.map fun t => base + d * zOf t) = (List.range g.length).map fun i => base + d * zOf (s.tasks.getD i (.done 0)) := by
        conv_lhs => rw [hts]
        rw [List.map_map]; rfl
      refine ⟨_, _, sw.trans sw2, .join ?_, ?_⟩
      · intro t ht
        obtain ⟨i, -, rfl⟩ := List.mem_map.1 ht
        rfl
      · have e1 : List.zipWith (fun a b => |a - b|) (s.tasks.map fun t => base + d * zOf t) s.mem.rank =
            ((List.range g.length).map fun i => (PageRank.Task.done |(base + d * zOf (s.tasks.getD i (.done 0))) - s.mem.rank.getD i 0| : PageRank.Task α)).map
              PageRank.Task.err := by
          rw [hrank, List.map_map]
          have := hg.l1
          refine List.ext_getElem (by simp [this]) fun i h1 h2 => ?_
          have hi : i < s.mem.rank.length := by simp at h1; omega
          simp only [List.getElem_zipWith, List.getElem_map, List.getElem_range, Function.comp, PageRank.Task.err]
          rw [List.getD_eq_getElem?_getD (l := s.mem.rank), List.getElem?_eq_getElem hi, Option.getD_some]
        unfold end6 endRound
        dsimp only
        rw [e1, hrank]
        split
        · exact .fin _
        · cases s.left with
          | zero => exact .fin _
          | succ k =>
            dsimp only
            rw [shares_ok (by simp) hd, res_bind_ok]
            refine .next ⟨rfl, Good.fresh (by simp) (by simp) ?_ (fun _ => rfl) fun _ => rfl⟩
            rw [hc]

/-! ## The results -/

/-- What C71 claims of the scores and the number of rounds. -/
def Approx (g : Rows α) (d threshold : ℚ) (maxIters : Nat) (p : Nat → ℚ) (r : List ℚ × Nat) : Prop :=
  r.2 ≤ maxIters ∧ Close g.length p ((1 - (1 - d) / g.length) ^ r.2 / (1 - d)) r.1 ∧
    (r.2 < maxIters → Close g.length p (threshold * g.length ^ 2 / (1 - d) ^ 2) r.1)

/-- The memory after the initialisation. -/
theorem start_eq {n : Nat} {deg : List Nat} (hdeg : deg.length = n) {rank : List ℚ} (hrank : rank.length = n) :
    start n deg rank = .ok ⟨List.replicate n (1 / (n : ℚ)), (List.range n).map fun i => quot ((List.replicate n (1 / (n : ℚ))).getD i 0) (deg.getD i 0)⟩ := by
  obtain ⟨m, h1, h2, h3, h4, h5⟩ := start_ok n deg hdeg rank hrank
  rw [h1]
  have e1 : m.rank = List.replicate n (1 / (n : ℚ)) := by
    refine List.eq_replicate_iff.2 ⟨h2, fun x hx => ?_⟩
    obtain ⟨i, hi⟩ := List.getElem?_of_mem hx
    exact h4 i x hi
  have e2 : m.contrib = (List.range n).map fun i => quot ((List.replicate n (1 / (n : ℚ))).getD i 0) (deg.getD i 0) := by
    refine List.ext_getElem? fun i => ?_
    by_cases hi : i < n
    · have : m.rank[i]? = some (1 / (n : ℚ)) := by rw [e1, List.getElem?_replicate, if_pos hi]
      rw [h5 i _ this, range_map_get hi, List.getD_eq_getElem?_getD (l := List.replicate n _), List.getElem?_replicate, if_pos hi]; rfl
    · rw [List.getElem?_eq_none (by omega), List.getElem?_eq_none (by simp; omega)]
  cases m
  simp only at e1 e2
  rw [e1, e2]

theorem fillMem_eq {n : Nat} {deg : List Nat} (hdeg : deg.length = n) (maxIters : Nat) {rank : List ℚ} (hrank : rank.length = n) :
    fillMem n deg maxIters rank = .ok ⟨List.replicate n (1 / (n : ℚ)),
      if maxIters = 0 then [] else (List.range n).map fun i => quot ((List.replicate n (1 / (n : ℚ))).getD i 0) (deg.getD i 0)⟩ := by
  unfold fillMem
  rw [hrank]
  cases maxIters with
  | zero => rfl
  | succ k =>
    dsimp only
    rw [shares_ok (by simp) hdeg, res_bind_ok, if_neg (by omega)]; rfl

theorem loopMem_eq {n : Nat} {deg : List Nat} (hdeg : deg.length = n) (maxIters : Nat) {rank : List ℚ} (hrank : rank.length = n) :
    loopMem n deg maxIters rank = .ok ⟨List.replicate n (1 / (n : ℚ)),
      if maxIters = 0 then [] else (List.range n).map fun i => quot ((List.replicate n (1 / (n : ℚ))).getD i 0) (deg.getD i 0)⟩ := by
  have h := start_eq hdeg hrank
  unfold start at h
  obtain ⟨r, h1, h⟩ := bind_ok_inv h
  obtain ⟨c, h2, h⟩ := bind_ok_inv h
  cases h
  unfold loopMem
  rw [h1, res_bind_ok]
  cases maxIters with
  | zero => rfl
  | succ k =>
    dsimp only
    rw [shares_ok (by simp) hdeg, res_bind_ok, if_neg (by omega)]; rfl

/-- The hypotheses of C71. -/
structure Usable (g : Rows α) (deg : List Nat) (d : ℚ) (rank : List ℚ) : Prop where
  nonempty : g ≠ []
  inRange : InRange g
  len : deg.length = g.length
  degrees : ∀ j, j < g.length → listed g j ≤ deg.getD j 0
  d0 : 0 ≤ d
  d1 : d < 1
  rankLen : rank.length = g.length

/-- The PageRank vector, and the loop of C71 started as the versions start it. -/
theorem base_sure {g : Rows α} {deg : List Nat} {d : ℚ} {rank : List ℚ} (hu : Usable g deg d rank) (threshold : ℚ) (maxIters : Nat) {p : Nat → ℚ}
    (hp : IsPageRank g (fun j => deg.getD j 0) d p) :
    match maxIters with
    | 0 => Approx g d threshold maxIters p (List.replicate g.length (1 / (g.length : ℚ)), 0)
    | k + 1 => Sure (Step g ((1 - d) / g.length) d deg threshold) (Approx g d threshold maxIters p)
        { left := k, rounds := 0, tasks := tasks g, mem := ⟨List.replicate g.length (1 / (g.length : ℚ)),
          (List.range g.length).map fun i => quot ((List.replicate g.length (1 / (g.length : ℚ))).getD i 0) (deg.getD i 0)⟩ } := by
  obtain ⟨q, h1, h2, -, h4⟩ := page_rank_converges g hu.nonempty hu.inRange deg hu.len hu.degrees d threshold hu.d0 hu.d1 maxIters rank hu.rankLen
  have hq := h2 p hp
  have hcl : ∀ e x, Close g.length q e x → Close g.length p e x := by
    rintro e x ⟨k1, k2⟩
    refine ⟨k1, fun i y hy => ?_⟩
    have hi : i < g.length := by rw [← k1]; exact (List.getElem?_eq_some_iff.1 hy).1
    rw [hq i hi]
    exact k2 i y hy
  unfold Always at h4
  rw [start_eq hu.len hu.rankLen] at h4
  dsimp only at h4
  cases maxIters with
  | zero => exact ⟨h4.1, hcl _ _ h4.2.1, fun h => hcl _ _ (h4.2.2 h)⟩
  | succ k => exact h4.mono fun r hr => ⟨hr.1, hcl _ _ hr.2.1, fun h => hcl _ _ (hr.2.2 h)⟩

theorem always_of_cut {g : Rows α} {jac : Bool} {deg : List Nat} {d : ℚ} {rank : List ℚ} (hu : Usable g deg d rank) (threshold : ℚ) (maxIters : Nat) {p : Nat → ℚ}
    (hp : IsPageRank g (fun j => deg.getD j 0) d p) {cut : List (List Nat) → Prop} (hcut : ∃ bs, cut bs)
    (hperm : ∀ bs, cut bs → bs.flatten.Perm (List.range g.length)) {m : Res Mem} {c0 : List (Option ℚ)}
    (hm : m = .ok ⟨List.replicate g.length (1 / (g.length : ℚ)),
      if maxIters = 0 then c0 else (List.range g.length).map fun i => quot ((List.replicate g.length (1 / (g.length : ℚ))).getD i 0) (deg.getD i 0)⟩) :
    XAlways g g.length jac cut (taskStep ((1 - d) / g.length) d deg) deg threshold maxIters m (Approx g d threshold maxIters p) := by
  have hb := base_sure hu threshold maxIters hp
  refine ⟨_, hm, ?_⟩
  cases maxIters with
  | zero => exact hb
  | succ k =>
    refine ⟨hcut, fun bs hbs => ?_⟩
    rw [if_neg (by omega)]
    refine (xsim g jac cut hcut hperm _ d threshold deg hu.len).sure (t := _) ⟨rfl, ?_⟩ hb
    refine Good.fresh (by simp) (by simp) (hperm bs hbs) (fun _ => ?_) fun _ h => rfl
    cases jac <;> rfl

theorem strided_perm {T n : Nat} (hT : 0 < T) : ((List.range T).map fun t => (List.range n).filter fun i => i % T == t).flatten.Perm (List.range n) := by
  rw [List.perm_iff_count]
  intro a
  rw [List.count_flatten, List.map_map]
  have h1 : ∀ t, ((fun l : List Nat => l.count a) ∘ fun t => (List.range n).filter fun i => i % T == t) t = if t = a % T then (List.range n).count a else 0 := by
    intro t
    simp only [Function.comp]
    split
    · rename_i h
      rw [List.count_filter]
      simp [h]
    · rename_i h
      rw [List.count_eq_zero]
      simp only [List.mem_filter, beq_iff_eq, not_and]
      intro _ h2
      exact h h2.symm
  rw [List.map_congr_left fun t _ => h1 t]
  have h2 : ∀ m, a % T < m → ((List.range m).map fun t => if t = a % T then (List.range n).count a else 0).sum = (List.range n).count a := by
    intro m hm
    induction m with
    | zero => omega
    | succ m ih =>
      rw [List.range_succ, List.map_append, List.sum_append]
      by_cases c : a % T < m
      · rw [ih c]; simp [show m ≠ a % T by omega]
      · have : m = a % T := by omega
        subst this
        have h0 : ((List.range (a % T)).map fun t => if t = a % T then (List.range n).count a else 0).sum = 0 := by
          rw [List.sum_eq_zero]
          intro x hx
          obtain ⟨t, ht, rfl⟩ := List.mem_map.1 hx
          rw [if_neg (by have := List.mem_range.1 ht; omega)]
        rw [h0]; simp
  exact h2 T (Nat.mod_lt _ hT)

/-- C91.  `page_rank_v1`, `page_rank_v4` (with at least one thread), `page_rank_v6` to `page_rank_v10` and `page_rank_v14`: under every schedule, and however the vertices are
shared out, they end without a fault after some number of rounds with scores as close to the PageRank vector as those of `page_rank` (C71). -/
theorem page_rank_versions (g : Rows α) (deg : List Nat) (d threshold : ℚ) (maxIters : Nat) (rank : List ℚ) (hu : Usable g deg d rank) (p : Nat → ℚ)
    (hp : IsPageRank g (fun j => deg.getD j 0) d p) :
    v1 g deg d threshold maxIters rank (Approx g d threshold maxIters p) ∧
    (∀ T, 0 < T → v4 T g deg d threshold maxIters rank (Approx g d threshold maxIters p)) ∧
    v6 g deg d threshold maxIters rank (Approx g d threshold maxIters p) ∧
    v789 g deg d threshold maxIters rank (Approx g d threshold maxIters p) ∧
    v10 g deg d threshold maxIters rank (Approx g d threshold maxIters p) ∧
    v14 g deg d threshold maxIters rank (Approx g d threshold maxIters p) := by
  have hf := fillMem_eq hu.len maxIters hu.rankLen
  refine ⟨?_, ?_, ?_, ?_, ?_, ?_⟩
  · unfold v1
    rw [hu.rankLen]
    exact always_of_cut hu threshold maxIters hp (cut := inOrder g.length) ⟨_, rfl⟩ (fun bs h => by rw [show bs = _ from h]; simp) hf
  · intro T hT
    unfold v4
    rw [hu.rankLen]
    exact always_of_cut hu threshold maxIters hp (cut := strided T g.length) ⟨_, rfl⟩ (fun bs h => by rw [show bs = _ from h]; exact strided_perm hT) hf
  · unfold v6
    rw [hu.rankLen]
    have hb := base_sure hu threshold maxIters hp
    refine ⟨_, hf, ?_⟩
    cases maxIters with
    | zero => exact hb
    | succ k =>
      intro bs hbs
      rw [if_neg (by omega)]
      refine (sim6 g _ d threshold deg hu.len).sure (t := _) ⟨rfl, ?_⟩ hb
      refine Good.fresh (by simp) (by simp) (by rw [hbs]) (fun _ => rfl) fun _ => rfl
  · unfold v789
    rw [hu.rankLen]
    exact always_of_cut hu threshold maxIters hp ⟨[List.range g.length], by simp [stretches]⟩ (fun bs h => by rw [h]) hf
  · unfold v10
    exact always_of_cut hu threshold maxIters hp ⟨[List.range g.length], by simp [stretches]⟩ (fun bs h => by rw [h]) (loopMem_eq hu.len maxIters hu.rankLen)
  · unfold v14
    refine always_of_cut (c0 := (List.range g.length).map fun i => quot ((List.replicate g.length (1 / (g.length : ℚ))).getD i 0) (deg.getD i 0))
      hu threshold maxIters hp ⟨[List.range g.length], by simp [stretches]⟩ (fun bs h => by rw [h]) ?_
    rw [start_eq hu.len hu.rankLen, ite_self]

/-- The degrees `page_rank_vc` counts. -/
theorem countDegrees_ok (g : Rows α) (hg : InRange g) : ∃ deg, countDegrees g g.length = .ok deg ∧ deg.length = g.length ∧
    ∀ j, j < g.length → deg.getD j 0 = listed g j := by
  have key : ∀ (l : List (Nat × α)) (deg : List Nat), deg.length = g.length → (∀ e ∈ l, e.1 < g.length) →
      ∃ deg', l.foldlM (fun (deg : List Nat) e => do
        let k ← vget deg e.1
        vset deg e.1 (k + 1)) deg = Except.ok deg' ∧ deg'.length = g.length ∧ ∀ j, j < g.length → deg'.getD j 0 = deg.getD j 0 + (l.map Prod.fst).count j := by
    intro l
    induction l with
    | nil => intro deg hd _; exact ⟨deg, rfl, hd, fun j _ => by simp⟩
    | cons e l ih =>
      intro deg hd hl
      have he : e.1 < deg.length := by rw [hd]; exact hl e (by simp)
      obtain ⟨deg', h1, h2, h3⟩ := ih (deg.set e.1 (deg[e.1] + 1)) (by simpa using hd) fun x hx => hl x (by simp [hx])
      refine ⟨deg', ?_, h2, ?_⟩
      · rw [List.foldlM_cons, vget_of_lt he, res_bind_ok, vset_of_lt he, res_bind_ok]
        exact h1
      · intro j hj
        rw [h3 j hj, List.map_cons, List.count_cons]
        simp only [List.getD_eq_getElem?_getD, List.getElem?_set]
        by_cases c : e.1 = j
        · subst c
          rw [if_pos rfl, if_pos he, List.getElem?_eq_getElem he]
          simp; omega
        · rw [if_neg c]
          simp [c]
  obtain ⟨deg, h1, h2, h3⟩ := key g.flatten (List.replicate g.length 0) (by simp) fun e he =>
    mem_flatten_lt hg (List.mem_map_of_mem (f := Prod.fst) he)
  refine ⟨deg, h1, h2, fun j hj => ?_⟩
  rw [h3 j hj, List.getD_eq_getElem?_getD, List.getElem?_replicate, if_pos hj]
  simp [listed]

/-- C91.  `page_rank_vc` counts the degrees itself: on every graph with a vertex it ends without a fault with scores close to the PageRank vector. -/
theorem page_rank_vc_correct (g : Rows α) (hne : g ≠ []) (hg : InRange g) (d threshold : ℚ) (h0 : 0 ≤ d) (h1 : d < 1) (maxIters : Nat) (rank : List ℚ)
    (hr : rank.length = g.length) (p : Nat → ℚ) (hp : IsPageRank g (listed g) d p) : vc g d threshold maxIters rank (Approx g d threshold maxIters p) := by
  obtain ⟨deg, k1, k2, k3⟩ := countDegrees_ok g hg
  have hu : Usable g deg d rank := ⟨hne, hg, k2, fun j hj => (k3 j hj).ge, h0, h1, hr⟩
  have hp' : IsPageRank g (fun j => deg.getD j 0) d p := by
    intro i hi
    rw [hp i hi]
    congr 3
    refine List.map_congr_left fun j hj => ?_
    dsimp only
    rw [k3 j (hg i j hj)]
  unfold vc
  rw [hr]
  exact ⟨deg, k1, always_of_cut hu threshold maxIters hp' (cut := inOrder g.length) ⟨_, rfl⟩ (fun bs h => by rw [show bs = _ from h]; simp) (fillMem_eq k2 maxIters hr)⟩

/-- Three vertices that link to each other in two ways: the vector exists and all versions come close to it. -/
example : ∃ p : Nat → ℚ, IsPageRank ([[(1, ()), (2, ())], [(0, ())], [(0, ())]] : Rows Unit) (fun j => [2, 1, 1].getD j 0) (17 / 20) p ∧
    v4 2 ([[(1, ()), (2, ())], [(0, ())], [(0, ())]] : Rows Unit) [2, 1, 1] (17 / 20) (1 / 10000) 1000 [0, 0, 0]
      (Approx ([[(1, ()), (2, ())], [(0, ())], [(0, ())]] : Rows Unit) (17 / 20) (1 / 10000) 1000 p) := by
  obtain ⟨p, h1, -, -, -⟩ := page_rank_converges ([[(1, ()), (2, ())], [(0, ())], [(0, ())]] : Rows Unit) (by simp) (by decide) [2, 1, 1] rfl (by decide) (17 / 20) (1 / 10000)
    (by norm_num) (by norm_num) 1000 [0, 0, 0] rfl
  exact ⟨p, h1, (page_rank_versions _ [2, 1, 1] _ _ _ [0, 0, 0] ⟨by simp, by decide, rfl, by decide, by norm_num, by norm_num, rfl⟩ p h1).2.1 2 (by omega)⟩

end NW.PageRankExp
