import Verif.Props.PageRankExp

/-! # C92: `page_rank_v2`, which begins with no contributions -/

namespace NW.PageRankExp
open NW.PageRank Spec

variable {α : Type}

theorem task_sets_rank {C : Ctx α} {m : Mem} {i : Nat} {t : PageRank.Task α} {r : PageRank.Task α × Mem} {row : List (Nat × α)} (hr : C.g[i]? = some row) (h : C.Ok)
    (hk : TaskOk C 1 (fun _ => 1 / (C.n : ℚ)) m i row t)
    (hs : stored t = true → ∃ x, m.rank[i]? = some x ∧ |x - C.p i| ≤ C.d * C.W row)
    (hst : taskStep C.base C.d C.deg m i t = .ok r) : stored r.1 = true → ∃ x, r.2.rank[i]? = some x ∧ |x - C.p i| ≤ C.d * C.W row := by
  intro hr1
  cases t with
  | sum z rest =>
    have := taskStep_next hst
    cases rest with
    | nil => obtain ⟨z, hz⟩ := this; rw [hz] at hr1; cases hr1
    | cons => obtain ⟨z, rest, hz⟩ := this; rw [hz] at hr1; cases hr1
  | store z =>
    obtain ⟨h1, h2⟩ := hk
    obtain ⟨old, -, hst⟩ := bind_ok_inv hst
    obtain ⟨rk, h3, hst⟩ := bind_ok_inv hst
    obtain ⟨new, -, hst⟩ := bind_ok_inv hst
    cases hst
    have hi : i < m.rank.length := (List.getElem?_eq_some_iff.1 h2).1
    rw [vset_of_lt hi] at h3
    cases h3
    refine ⟨_, by rw [List.getElem?_set_self hi], ?_⟩
    rw [show C.base + C.d * z - C.p i = C.d * (z - C.W row) by rw [h.eqn i row hr]; ring, abs_mul, abs_of_nonneg h.d0]
    exact mul_le_mul_of_nonneg_left (by linarith) h.d0
  | share e =>
    obtain ⟨x, -, hst⟩ := bind_ok_inv hst
    obtain ⟨n, -, hst⟩ := bind_ok_inv hst
    obtain ⟨c, -, hst⟩ := bind_ok_inv hst
    cases hst
    exact hs rfl
  | done e => cases hst; exact hs rfl

variable (C : Ctx α)

/-- Vertex 0 sees no contributions in the first round. -/
def ZeroOk (s : XSt α) : Prop :=
  s.tasks[0]? = some (.done |C.base - 1 / (C.n : ℚ)|) ∨
    ((∃ rest, s.bs = [0 :: rest]) ∧ (∀ (j : Nat) c, s.mem.contrib[j]? = some c → c = some 0) ∧ s.mem.rank[0]? = some (1 / (C.n : ℚ)) ∧
      ((∃ row, s.tasks[0]? = some (.sum 0 row)) ∨ s.tasks[0]? = some (.store 0))) ∨
    ((∃ rest, s.bs = [0 :: rest]) ∧ s.tasks[0]? = some (.share |C.base - 1 / (C.n : ℚ)|))

/-- What is known during the first round. -/
structure First (s : XSt α) : Prop where
  good : Good C.n (leaves false) (fun _ => True) s
  zero : s.rounds = 0
  count : s.left + 1 = C.max
  contrib : ContribOk C 1 s.mem
  task : ∀ (i : Nat) t row, s.tasks[i]? = some t → C.g[i]? = some row → TaskOk C 1 (fun _ => 1 / (C.n : ℚ)) s.mem i row t
  near : ∀ (i : Nat) t row, s.tasks[i]? = some t → C.g[i]? = some row → stored t = true → ∃ x, s.mem.rank[i]? = some x ∧ |x - C.p i| ≤ C.d * C.W row
  first : ZeroOk C s
  one : ∃ b, s.bs = [b]

variable {C}

theorem ZeroOk.step {s : XSt α} (hone : ∃ b, s.bs = [b]) (hz : ZeroOk C s) {k i : Nat} {rest : List Nat} (hg : Good C.n (leaves false) (fun _ => True) s) (hk : s.bs[k]? = some (i :: rest))
    {t : PageRank.Task α} (ht : s.tasks[i]? = some t) {r : PageRank.Task α × Mem} (hst : taskStep C.base C.d C.deg s.mem i t = .ok r) :
    ZeroOk C { s with bs := s.bs.set k (if leaves false r.1 then rest else i :: rest), tasks := s.tasks.set i r.1, mem := r.2 } := by
  obtain ⟨b, hb⟩ := hone
  have hk0 : k = 0 ∧ b = i :: rest := by
    rw [hb] at hk
    cases k with
    | zero => simp at hk; exact ⟨rfl, hk⟩
    | succ k => simp at hk
  obtain ⟨rfl, rfl⟩ := hk0
  have hin : i ∈ s.bs.flatten := by rw [hb]; simp
  rcases hz with h | ⟨⟨rest', h1⟩, h2, h3, h4⟩ | ⟨⟨rest', h1⟩, h2⟩
  · left
    have hi : i ≠ 0 := by
      rintro rfl
      have := (hg.holds 0 _ h).1 hin
      cases this
    simp only
    rw [getElem?_set_other hi]
    exact h
  · rw [hb] at h1
    simp only [List.cons.injEq, and_true] at h1
    obtain ⟨rfl, rfl⟩ := h1
    rcases h4 with ⟨row, h4⟩ | h4
    · rw [h4] at ht
      cases ht
      right; left
      cases row with
      | nil =>
        cases hst
        refine ⟨⟨rest, by rw [hb]; simp [leaves, PageRank.Task.isDone]⟩, h2, h3, Or.inr (getElem?_set_same h4)⟩
      | cons e row =>
        obtain ⟨c, hc, hst⟩ := bind_ok_inv hst
        have := h2 _ _ (vget_eq_ok.1 hc)
        subst this
        cases hst
        refine ⟨⟨rest, by rw [hb]; simp [leaves, PageRank.Task.isDone]⟩, h2, h3, Or.inl ⟨row, ?_⟩⟩
        simp only
        rw [getElem?_set_same h4]; simp
    · rw [h4] at ht
      cases ht
      right; right
      obtain ⟨old, ho, hst⟩ := bind_ok_inv hst
      obtain ⟨rk, h5, hst⟩ := bind_ok_inv hst
      obtain ⟨new, hn, hst⟩ := bind_ok_inv hst
      cases hst
      have hi : 0 < s.mem.rank.length := (List.getElem?_eq_some_iff.1 h3).1
      rw [vset_of_lt hi] at h5
      cases h5
      rw [vget_eq_ok.2 h3] at ho
      cases ho
      rw [vget_eq_ok.2 (List.getElem?_set_self hi)] at hn
      cases hn
      refine ⟨⟨rest, by rw [hb]; simp [leaves, PageRank.Task.isDone]⟩, ?_⟩
      simp only
      rw [getElem?_set_same h4]; simp
  · rw [hb] at h1
    simp only [List.cons.injEq, and_true] at h1
    obtain ⟨rfl, rfl⟩ := h1
    rw [h2] at ht
    cases ht
    obtain ⟨x, -, hst⟩ := bind_ok_inv hst
    obtain ⟨n, -, hst⟩ := bind_ok_inv hst
    obtain ⟨c, -, hst⟩ := bind_ok_inv hst
    cases hst
    left
    exact getElem?_set_same h2

/-- What stopping after the first round says of the scores. -/
theorem first_stop (h : C.Ok) (hW : ∀ (i : Nat) row, C.g[i]? = some row → C.W row ≤ 1) {s : XSt α} (hf : First C s) (hall : ∀ t ∈ s.tasks, t.isDone = true)
    (hlt : (s.tasks.map err).sum < C.threshold) : Close C.g.length C.p (C.threshold * C.g.length ^ 2 / (1 - C.d) ^ 2) s.mem.rank := by
  have hn : (0 : ℚ) < C.n := by exact_mod_cast h.pos
  have hd : 0 < 1 - C.d := by linarith [h.d1]
  have h0 : s.tasks[0]? = some (.done |C.base - 1 / (C.n : ℚ)|) := by
    rcases hf.first with h0 | ⟨-, -, -, ⟨row, h0⟩ | h0⟩ | ⟨-, h0⟩
    · exact h0
    all_goals
      have := hall _ (List.mem_of_getElem? h0)
      cases this
  have he : |C.base - 1 / (C.n : ℚ)| = C.d / C.n := by
    rw [show C.base - 1 / (C.n : ℚ) = -(C.d / C.n) by unfold Ctx.base; field_simp; ring, abs_neg, abs_of_nonneg (div_nonneg h.d0 hn.le)]
  have hthr : C.d / C.n < C.threshold := by
    refine lt_of_le_of_lt (sum_ge (l := s.tasks.map err) ?_ ?_) hlt
    · intro y hy
      obtain ⟨t, ht, rfl⟩ := List.mem_map.1 hy
      obtain ⟨i, hi⟩ := List.getElem?_of_mem ht
      have hin : i < C.g.length := by rw [show C.g.length = C.n from rfl, ← hf.good.l3]; exact (List.getElem?_eq_some_iff.1 hi).1
      have hk := hf.task i t _ hi (List.getElem?_eq_getElem hin)
      cases t with
      | done e => obtain ⟨x, -, k, -⟩ := hk; simp only [err]; rw [k]; exact abs_nonneg _
      | share e => cases hall _ ht
      | store e => cases hall _ ht
      | sum e => cases hall _ ht
    · rw [← he]
      exact List.mem_map.2 ⟨_, List.mem_of_getElem? h0, rfl⟩
  refine ⟨hf.good.l1, fun i y hy => ?_⟩
  have hi : i < C.n := by rw [← hf.good.l1]; exact (List.getElem?_eq_some_iff.1 hy).1
  have hrow : C.g[i]? = some (C.g[i]'hi) := List.getElem?_eq_getElem hi
  have hti : i < s.tasks.length := by rw [hf.good.l3]; exact hi
  have hdone := hall _ (List.getElem_mem hti)
  obtain ⟨x, x1, x2⟩ := hf.near i _ _ (List.getElem?_eq_getElem hti) hrow (by
    cases ht : s.tasks[i] with
    | done => rfl
    | share => rfl
    | store => rw [ht] at hdone; cases hdone
    | sum => rw [ht] at hdone; cases hdone)
  rw [hy] at x1
  cases x1
  have a1 : |y - C.p i| ≤ C.d := by
    have := mul_le_mul_of_nonneg_left (hW i _ hrow) h.d0
    linarith
  have a2 : C.d ≤ C.threshold * C.g.length ^ 2 / (1 - C.d) ^ 2 * C.base := by
    have e1 : C.threshold * (C.g.length : ℚ) ^ 2 / (1 - C.d) ^ 2 * C.base = C.threshold * C.n / (1 - C.d) := by
      unfold Ctx.base
      rw [show (C.g.length : ℚ) = C.n from rfl]
      field_simp
    rw [e1, le_div_iff₀ hd]
    have := (div_lt_iff₀ hn).1 hthr
    nlinarith [h.d0]
  have a3 : 0 ≤ C.threshold * (C.g.length : ℚ) ^ 2 / (1 - C.d) ^ 2 := by
    have : 0 ≤ C.threshold := le_trans (div_nonneg h.d0 hn.le) hthr.le
    positivity
  have := mul_le_mul_of_nonneg_left (h.lo i hi) a3
  linarith

theorem first_sure (h : C.Ok) (hW : ∀ (i : Nat) row, C.g[i]? = some row → C.W row ≤ 1) (s : XSt α) (hs : First C s) :
    Sure (XStep C.g C.g.length false (inOrder C.g.length) (taskStep C.base C.d C.deg) C.deg C.threshold)
      (fun r => r.2 ≤ C.max ∧ Close C.g.length C.p ((1 - (1 - C.d) / C.g.length) ^ r.2 / (1 - C.d)) r.1 ∧
        (r.2 < C.max → Close C.g.length C.p (C.threshold * C.g.length ^ 2 / (1 - C.d) ^ 2) r.1)) s := by
  have hcut : ∀ bs, inOrder C.g.length bs → bs.flatten.Perm (List.range C.g.length) := fun bs h => by rw [show bs = _ from h]; simp
  have sim := xsim C.g false (inOrder C.g.length) ⟨_, rfl⟩ hcut C.base C.d C.threshold C.deg h.len
  generalize hm : (s.tasks.map weight).sum = w
  induction w using Nat.strong_induction_on generalizing s with
  | _ w ih =>
    subst hm
    have hgo := sim.go (s := s) (t := toSt s) ⟨rfl, by
      have hg := hs.good
      exact ⟨hg.l1, hg.l2, hg.l3, hg.nd, hg.lt, hg.holds, fun t _ h => by cases h⟩⟩
    have hstep : ∀ o, XStep C.g C.g.length false (inOrder C.g.length) (taskStep C.base C.d C.deg) C.deg C.threshold s o →
        (∃ s', o = .ok (.inl s') ∧ First C s' ∧ (s'.tasks.map weight).sum < (s.tasks.map weight).sum) ∨
        (∃ s', o = .ok (.inl s') ∧ ∃ t, Rel C.g.length false s' t ∧ Inv C t) ∨
        ∃ r, o = .ok (.inr r) ∧ (r.2 ≤ C.max ∧ Close C.g.length C.p ((1 - (1 - C.d) / C.g.length) ^ r.2 / (1 - C.d)) r.1 ∧
          (r.2 < C.max → Close C.g.length C.p (C.threshold * C.g.length ^ 2 / (1 - C.d) ^ 2) r.1)) := by
      intro o ho
      cases ho with
      | @task k i rest t hk ht =>
        left
        have hin : i ∈ s.bs.flatten := (flatten_split hk).symm.subset (by simp)
        have hl := (hs.good.holds i t ht).1 hin
        have hi := hs.good.lt i hin
        have hrow : C.g[i]? = some (C.g[i]'hi) := List.getElem?_eq_getElem hi
        obtain ⟨r, r1, r2, r3, r4, r5, r6, r7⟩ := taskStep_ok h (by norm_num) hs.good.l1 hs.good.l2 hs.contrib hrow (hs.task i t _ ht hrow) (leaves_isDone hl)
        rw [r1]
        refine ⟨_, rfl, ?_, sum_map_set_lt weight ht r6⟩
        obtain ⟨e1, e2⟩ := taskStep_len r1
        refine ⟨hs.good.step hk e1 e2 trivial, hs.zero, hs.count, r4, ?_, ?_, hs.first.step hs.one hs.good hk ht r1, ?_⟩
        · intro j t' row' hj hrow'
          rcases getElem?_set_cases hj with ⟨rfl, rfl⟩ | ⟨hne, hj'⟩
          · rw [hrow] at hrow'; cases hrow'; exact r5
          · exact (hs.task j t' row' hj' hrow').frame (r7 j (Ne.symm hne))
        · intro j t' row' hj hrow'
          rcases getElem?_set_cases hj with ⟨rfl, rfl⟩ | ⟨hne, hj'⟩
          · rw [hrow] at hrow'; cases hrow'
            exact task_sets_rank hrow h (hs.task i t _ ht hrow) (hs.near i t _ ht hrow) r1
          · intro hst
            rw [(r7 j (Ne.symm hne)).1]
            exact hs.near j t' row' hj' hrow' hst
        · obtain ⟨b, hb⟩ := hs.one
          refine ⟨if leaves false r.1 then rest else i :: rest, ?_⟩
          rw [hb] at hk ⊢
          cases k with
          | zero => rfl
          | succ k => simp at hk
      | @missing k i rest hk ht =>
        have hin : i ∈ s.bs.flatten := (flatten_split hk).symm.subset (by simp)
        have := hs.good.lt i hin
        rw [← hs.good.l3] at this
        rw [List.getElem?_eq_getElem this] at ht
        cases ht
      | join hb bs' hc =>
        right
        have hall : ∀ t ∈ s.tasks, t.isDone = true := fun t ht => by simpa [leaves] using hs.good.all hb t ht
        have hdone : ∀ i x, s.mem.rank[i]? = some x → |x - C.p i| ≤ bound C 1 * C.p i ∧ s.mem.contrib[i]? = some (quot x (C.dg i)) := by
          intro i x hx
          have hi : i < C.n := by rw [← hs.good.l1]; exact (List.getElem?_eq_some_iff.1 hx).1
          have hrow : C.g[i]? = some (C.g[i]'hi) := List.getElem?_eq_getElem hi
          have hti : i < s.tasks.length := by rw [hs.good.l3]; exact hi
          have hk := hs.task i _ _ (List.getElem?_eq_getElem hti) hrow
          have hd := hall _ (List.getElem_mem hti)
          cases ht : s.tasks[i] with
          | share => rw [ht] at hd; cases hd
          | store => rw [ht] at hd; cases hd
          | sum => rw [ht] at hd; cases hd
          | done e =>
            rw [ht] at hk
            obtain ⟨y, y1, -, y3, y4⟩ := hk
            rw [hx] at y1
            cases y1
            refine ⟨le_trans y3 (mul_le_mul_of_nonneg_right ?_ (h.p_pos hi).le), y4⟩
            unfold bound
            rw [pow_one, mul_one, le_div_iff₀ (by linarith [h.d1])]
            nlinarith [h.rho_nonneg, h.d0]
        have hclose : Close C.g.length C.p ((1 - (1 - C.d) / C.g.length) ^ 1 / (1 - C.d)) s.mem.rank := ⟨hs.good.l1, fun i x hx => (hdone i x hx).1⟩
        have hcount := hs.count
        unfold xEnd
        split
        · rename_i hlt
          right
          refine ⟨_, rfl, by simp only [hs.zero]; omega, by simp only [hs.zero]; exact hclose, fun _ => first_stop h hW hs hall hlt⟩
        · cases hleft : s.left with
          | zero =>
            right
            refine ⟨_, rfl, by simp only [hs.zero]; omega, by simp only [hs.zero]; exact hclose, fun hlt => ?_⟩
            simp only [hs.zero] at hlt
            omega
          | succ k =>
            left
            refine ⟨_, rfl, _, ⟨rfl, Good.fresh hs.good.l1 hs.good.l2 (hcut _ hc) (fun _ => rfl) fun _ h => by cases h⟩, ?_⟩
            refine Inv.fresh hs.good.l1 hs.good.l2 (by simp only [hs.zero]; omega) ?_ fun i x hx => (hdone i x hx).2
            rw [hs.zero]
            exact fun i x hx => (hdone i x hx).1
    refine .mk hgo ?_ ?_ ?_
    · intro f hf
      rcases hstep _ hf with ⟨_, k, -⟩ | ⟨_, k, -⟩ | ⟨_, k, -⟩ <;> cases k
    · intro r hr
      rcases hstep _ hr with ⟨_, k, -⟩ | ⟨_, k, -⟩ | ⟨_, k, hq⟩
      · cases k
      · cases k
      · cases k; exact hq
    · intro s' hs'
      rcases hstep _ hs' with ⟨_, k, k2, k3⟩ | ⟨_, k, t, k2, k3⟩ | ⟨_, k, -⟩
      · cases k
        exact ih _ k3 _ k2 rfl
      · cases k
        exact sim.sure k2 ((step_sure h t k3).mono fun r hr => hr.approx h)
      · cases k

/-- C92.  `page_rank_v2`, whose first round begins without contributions and whose later rounds use each score at once, comes as close to the PageRank vector as
`page_rank` does (C71); after the first round it stops only if the threshold is larger than `d / n`, in which case the claimed error is no smaller. -/
theorem page_rank_v2_correct (g : Rows α) (deg : List Nat) (d threshold : ℚ) (maxIters : Nat) (rank : List ℚ) (hu : Usable g deg d rank) (p : Nat → ℚ)
    (hp : IsPageRank g (fun j => deg.getD j 0) d p) : v2 g deg d threshold maxIters rank (Approx g d threshold maxIters p) := by
  have hb := base_sure hu threshold maxIters hp
  unfold v2
  rw [hu.rankLen]
  refine ⟨_, rfl, ?_⟩
  cases maxIters with
  | zero => exact hb
  | succ k =>
    refine ⟨⟨_, rfl⟩, fun bs hbs => ?_⟩
    have hC : Ctx.Ok { g := g, deg := deg, d := d, threshold := threshold, max := k + 1, p := p } :=
      .of_isPageRank hu.nonempty hu.inRange hu.len hu.degrees threshold hu.d0 hu.d1 (k + 1) hp
    have hn : (0 : ℚ) < g.length := by exact_mod_cast hC.pos
    have hpn : ∀ i, i < g.length → 0 ≤ p i := fun i hi => (hC.p_pos (i := i) hi).le
    -- at most all scores arrive at one vertex, and these add up to at most one
    have hW : ∀ (i : Nat) row, g[i]? = some row → Ctx.W { g := g, deg := deg, d := d, threshold := threshold, max := k + 1, p := p } row ≤ 1 := by
      intro i row hr
      have hi : i < g.length := (List.getElem?_eq_some_iff.1 hr).1
      let x : Nat → ℚ := fun j => if j < g.length then p j else 0
      have hx : ∀ j, 0 ≤ x j := by
        intro j
        simp only [x]
        split
        · exact hpn j ‹_›
        · exact le_refl 0
      have hxp : ∀ j, j < g.length → p j = x j := fun j hj => by simp only [x, if_pos hj]
      have hA := arriving_le g hu.inRange (fun j => deg.getD j 0) hu.degrees x hx
      have hA0 : ∀ i, 0 ≤ arriving g (fun j => deg.getD j 0) x i := by
        intro i
        unfold arriving
        refine List.sum_nonneg fun y hy => ?_
        obtain ⟨j, -, rfl⟩ := List.mem_map.1 hy
        exact div_nonneg (hx j) (by positivity)
      have e1 : ∀ i, i < g.length → x i = (1 - d) / g.length + d * arriving g (fun j => deg.getD j 0) x i := by
        intro i hi
        rw [← hxp i hi, hp i hi, ← arriving_congr g hu.inRange _ hxp]; rfl
      have e2 : ∑ j ∈ Finset.range g.length, x j = (1 - d) + d * ∑ j ∈ Finset.range g.length, arriving g (fun j => deg.getD j 0) x j := by
        rw [Finset.sum_congr rfl fun i hi => e1 i (Finset.mem_range.1 hi), Finset.sum_add_distrib, ← Finset.mul_sum, Finset.sum_const, Finset.card_range, nsmul_eq_mul]
        field_simp
      have e3 : ∑ j ∈ Finset.range g.length, x j ≤ 1 := by
        have := mul_le_mul_of_nonneg_left hA hu.d0
        have h1 := hu.d1
        nlinarith
      have e4 : arriving g (fun j => deg.getD j 0) x i ≤ ∑ j ∈ Finset.range g.length, arriving g (fun j => deg.getD j 0) x j :=
        Finset.single_le_sum (fun j _ => hA0 j) (Finset.mem_range.2 hi)
      have e5 : Ctx.W { g := g, deg := deg, d := d, threshold := threshold, max := k + 1, p := p } row = arriving g (fun j => deg.getD j 0) x i := by
        rw [← arriving_congr g hu.inRange _ hxp]
        unfold arriving nbrs
        rw [List.getD_eq_getElem?_getD, hr, Option.getD_some, List.map_map]; rfl
      rw [e5]
      linarith
    refine first_sure (C := { g := g, deg := deg, d := d, threshold := threshold, max := k + 1, p := p }) hC hW _ ?_
    have hbs : bs = [List.range g.length] := hbs
    have hpos : 0 < g.length := hC.pos
    refine ⟨Good.fresh (by simp) (by simp) (by rw [hbs]; simp) (fun _ => rfl) fun _ => trivial, rfl, rfl, ?_, ?_, ?_, ?_, ⟨_, hbs⟩⟩
    · intro j hj _
      refine ⟨0, ?_, ?_⟩
      · simp only [List.getElem?_replicate]
        exact if_pos hj
      · rw [zero_sub, abs_neg, abs_of_nonneg (hC.share_nonneg hj), one_mul]
    · intro i t row hi hrow
      unfold PageRank.tasks at hi
      rw [List.getElem?_map, hrow] at hi
      cases hi
      refine ⟨[], rfl, by simp [Ctx.W], ?_⟩
      simp only [List.getElem?_replicate]
      rw [if_pos (List.getElem?_eq_some_iff.1 hrow).1]; rfl
    · intro i t row hi hrow hst
      unfold PageRank.tasks at hi
      rw [List.getElem?_map, hrow] at hi
      cases hi
      cases hst
    · right; left
      refine ⟨⟨(List.range g.length).tail, ?_⟩, ?_, ?_, Or.inl ⟨g[0], ?_⟩⟩
      · simp only [hbs]
        obtain ⟨m, hm⟩ : ∃ m, g.length = m + 1 := ⟨g.length - 1, by omega⟩
        rw [hm, List.range_succ_eq_map]; rfl
      · intro j c hc
        simp only [List.getElem?_replicate] at hc
        split at hc
        · exact (Option.some.inj hc).symm
        · cases hc
      · simp only [List.getElem?_replicate]
        rw [if_pos hpos]; rfl
      · unfold PageRank.tasks
        rw [List.getElem?_map, List.getElem?_eq_getElem hpos]; rfl

/-- Three vertices. -/
example : ∃ p : Nat → ℚ, IsPageRank ([[(1, ()), (2, ())], [(0, ())], [(0, ())]] : Rows Unit) (fun j => [2, 1, 1].getD j 0) (17 / 20) p ∧
    v2 ([[(1, ()), (2, ())], [(0, ())], [(0, ())]] : Rows Unit) [2, 1, 1] (17 / 20) (1 / 10000) 1000 [0, 0, 0]
      (Approx ([[(1, ()), (2, ())], [(0, ())], [(0, ())]] : Rows Unit) (17 / 20) (1 / 10000) 1000 p) := by
  obtain ⟨p, h1, -, -, -⟩ := page_rank_converges ([[(1, ()), (2, ())], [(0, ())], [(0, ())]] : Rows Unit) (by simp) (by decide) [2, 1, 1] rfl (by decide) (17 / 20) (1 / 10000)
    (by norm_num) (by norm_num) 1000 [0, 0, 0] rfl
  exact ⟨p, h1, page_rank_v2_correct _ [2, 1, 1] _ _ _ [0, 0, 0] ⟨by simp, by decide, rfl, by decide, by norm_num, by norm_num, rfl⟩ p h1⟩

end NW.PageRankExp
