import Verif.Props.PageRankV2

/-! # C93: `page_rank_v12`, which leaves out contributions that are not above the threshold -/

namespace NW.PageRankExp
open NW.PageRank Spec

variable {α : Type}

/-! ## Small thresholds: nothing is left out -/

/-- All contributions are above the threshold. -/
structure Large (base threshold : ℚ) (s : XSt α) : Prop where
  sums : ∀ t ∈ s.tasks, match t with
    | .sum z _ => 0 ≤ z
    | .store z => 0 ≤ z
    | _ => True
  ranks : ∀ x ∈ s.mem.rank, base ≤ x
  contribs : ∀ c, some c ∈ s.mem.contrib → threshold < c

theorem task12_eq {base d threshold : ℚ} {deg : List Nat} {m : Mem} (h : ∀ c, some c ∈ m.contrib → threshold < c) (i : Nat) (t : PageRank.Task α) :
    task12 base d threshold deg m i t = taskStep base d deg m i t := by
  cases t with
  | sum z rest =>
    cases rest with
    | nil => rfl
    | cons e rest =>
      unfold task12 taskStep
      dsimp only
      cases hc : vget m.contrib e.1 with
      | error f => rfl
      | ok c =>
        cases c with
        | none => rfl
        | some c =>
          have := h c (List.mem_of_getElem? (vget_eq_ok.1 hc))
          simp [res_bind_ok, this]
  | store z => rfl
  | share e => rfl
  | done e => rfl

theorem Large.step {base d threshold : ℚ} {deg : List Nat} (hd : 0 ≤ d) (ht0 : 0 ≤ threshold) (hdeg : ∀ (i : Nat) k, deg[i]? = some k → threshold * k < base) {s : XSt α}
    (h : Large base threshold s) (bs : List (List Nat)) {i : Nat} {t : PageRank.Task α} (hi : s.tasks[i]? = some t) {r : PageRank.Task α × Mem}
    (hr : taskStep base d deg s.mem i t = .ok r) : Large base threshold { s with bs := bs, tasks := s.tasks.set i r.1, mem := r.2 } := by
  have hz := h.sums t (List.mem_of_getElem? hi)
  have keep : ∀ t', (match t' with | .sum z _ => 0 ≤ z | .store z => 0 ≤ z | _ => True) → ∀ t'' ∈ s.tasks.set i t', match t'' with
      | .sum z _ => 0 ≤ z
      | .store z => 0 ≤ z
      | _ => True := by
    intro t' h' t'' ht''
    rcases List.mem_or_eq_of_mem_set ht'' with h1 | rfl
    · exact h.sums _ h1
    · exact h'
  cases t with
  | sum z rest =>
    cases rest with
    | nil => cases hr; exact ⟨keep _ hz, h.ranks, h.contribs⟩
    | cons e rest =>
      obtain ⟨c, hc, hr⟩ := bind_ok_inv hr
      cases c with
      | none => cases hr
      | some c =>
        cases hr
        have := h.contribs c (List.mem_of_getElem? (vget_eq_ok.1 hc))
        exact ⟨keep _ (by dsimp only at hz ⊢; linarith), h.ranks, h.contribs⟩
  | store z =>
    obtain ⟨old, -, hr⟩ := bind_ok_inv hr
    obtain ⟨rk, h3, hr⟩ := bind_ok_inv hr
    obtain ⟨new, -, hr⟩ := bind_ok_inv hr
    cases hr
    refine ⟨keep _ trivial, ?_, h.contribs⟩
    intro x hx
    unfold vset at h3
    split at h3
    · cases h3
      rcases List.mem_or_eq_of_mem_set hx with h1 | rfl
      · exact h.ranks x h1
      · have := mul_nonneg hd hz; linarith
    · cases h3
  | share e =>
    obtain ⟨x, hx, hr⟩ := bind_ok_inv hr
    obtain ⟨k, hk, hr⟩ := bind_ok_inv hr
    obtain ⟨cs, hc, hr⟩ := bind_ok_inv hr
    cases hr
    refine ⟨keep _ trivial, h.ranks, ?_⟩
    intro c hcm
    unfold vset at hc
    split at hc
    · cases hc
      rcases List.mem_or_eq_of_mem_set hcm with h1 | h1
      · exact h.contribs c h1
      · unfold quot at h1
        split at h1
        · cases h1
        · rename_i hk0
          cases h1
          have e1 := h.ranks x (List.mem_of_getElem? (vget_eq_ok.1 hx))
          have e2 := hdeg i k (vget_eq_ok.1 hk)
          have e3 : (0 : ℚ) < k := by exact_mod_cast Nat.pos_of_ne_zero hk0
          rw [lt_div_iff₀ e3]
          linarith
    · cases hc
  | done e => cases hr; exact ⟨keep _ trivial, h.ranks, h.contribs⟩

theorem xstep_go {g : Rows α} {n : Nat} {jac : Bool} {cut : List (List Nat) → Prop} (hcut : ∃ bs, cut bs)
    {ts : Mem → Nat → PageRank.Task α → Res (PageRank.Task α × Mem)} {deg : List Nat} {threshold : ℚ} (s : XSt α) : ∃ o, XStep g n jac cut ts deg threshold s o := by
  by_cases c : ∀ b ∈ s.bs, b = []
  · obtain ⟨bs, hb⟩ := hcut
    exact ⟨_, .join c bs hb⟩
  · simp only [not_forall] at c
    obtain ⟨b, hb, c⟩ := c
    obtain ⟨k, hk⟩ := List.getElem?_of_mem hb
    cases b with
    | nil => exact absurd rfl c
    | cons i rest =>
      cases ht : s.tasks[i]? with
      | none => exact ⟨_, .missing hk ht⟩
      | some t => exact ⟨_, .task hk ht⟩

theorem sim12 (g : Rows α) (n : Nat) (cut : List (List Nat) → Prop) (hcut : ∃ bs, cut bs) {base d threshold : ℚ} {deg : List Nat} (hd : 0 ≤ d) (ht0 : 0 ≤ threshold)
    (hdeg : ∀ (i : Nat) k, deg[i]? = some k → threshold * k < base) :
    Sim (XStep g n false cut (task12 base d threshold deg) deg threshold) (XStep g n false cut (taskStep base d deg) deg threshold)
      (fun s t => s = t ∧ Large base threshold s) := by
  constructor
  · rintro s _ ⟨rfl, hl⟩
    exact xstep_go hcut s
  · rintro s _ o ⟨rfl, hl⟩ ho
    cases ho with
    | @task k i rest t hk ht =>
      refine ⟨_, .task hk ht, ?_⟩
      rw [task12_eq hl.contribs]
      cases hr : taskStep base d deg s.mem i t with
      | error f => exact .fault f
      | ok r => exact .next ⟨rfl, hl.step hd ht0 hdeg _ ht hr⟩
    | missing hk ht => exact ⟨_, .missing hk ht, .fault _⟩
    | join hb bs' hc =>
      refine ⟨_, .join hb bs' hc, ?_⟩
      unfold xEnd
      split
      · exact .fin _
      · cases s.left with
        | zero => exact .fin _
        | succ k =>
          refine .next ⟨rfl, ?_, hl.ranks, hl.contribs⟩
          intro t ht
          obtain ⟨row, -, rfl⟩ := List.mem_map.1 ht
          exact le_refl 0

/-- C93.  If the threshold is so small that every contribution is above it, `page_rank_v12` approximates the PageRank vector as `page_rank` does (C71).
(Missing: other thresholds, for which `page_rank_v12_ignores_links` shows that the claim is false.) -/
theorem page_rank_v12_partial (g : Rows α) (deg : List Nat) (d threshold : ℚ) (maxIters : Nat) (rank : List ℚ) (hu : Usable g deg d rank) (ht0 : 0 ≤ threshold)
    (hsmall : ∀ i, i < g.length → threshold * deg.getD i 0 < (1 - d) / g.length) (p : Nat → ℚ)
    (hp : IsPageRank g (fun j => deg.getD j 0) d p) : v12 g deg d threshold maxIters rank (Approx g d threshold maxIters p) := by
  obtain ⟨m, h1, h2⟩ := (page_rank_versions g deg d threshold maxIters rank hu p hp).2.2.2.2.2
  have hn : (0 : ℚ) < g.length := by
    have : 0 < g.length := by cases g with | nil => exact absurd rfl hu.nonempty | cons => simp
    exact_mod_cast this
  refine ⟨m, h1, ?_⟩
  cases maxIters with
  | zero => exact h2
  | succ k =>
    refine ⟨h2.1, fun bs hbs => ?_⟩
    have hdeg : ∀ (i : Nat) k, deg[i]? = some k → threshold * k < (1 - d) / g.length := by
      intro i k hk
      have hi : i < g.length := by rw [← hu.len]; exact (List.getElem?_eq_some_iff.1 hk).1
      have := hsmall i hi
      rw [List.getD_eq_getElem?_getD, hk] at this
      exact this
    refine (sim12 g g.length (stretches g.length) h2.1 hu.d0 ht0 hdeg).sure ⟨rfl, ?_⟩ (h2.2 bs hbs)
    rw [start_eq hu.len hu.rankLen] at h1
    cases h1
    have hd := hu.d0
    have hle : (1 - d) / (g.length : ℚ) ≤ 1 / g.length := div_le_div_of_nonneg_right (by linarith) hn.le
    refine ⟨?_, ?_, ?_⟩
    · intro t ht
      obtain ⟨row, -, rfl⟩ := List.mem_map.1 ht
      exact le_refl 0
    · intro x hx
      rw [(List.mem_replicate.1 hx).2]
      exact hle
    · intro c hc
      obtain ⟨i, hi, hq⟩ := List.mem_map.1 hc
      have hi := List.mem_range.1 hi
      rw [List.getD_eq_getElem?_getD, List.getElem?_replicate, if_pos hi, Option.getD_some] at hq
      unfold quot at hq
      split at hq
      · cases hq
      · rename_i hk0
        cases hq
        have e3 : (0 : ℚ) < (deg.getD i 0 : ℚ) := by exact_mod_cast Nat.pos_of_ne_zero hk0
        rw [lt_div_iff₀ e3]
        linarith [hsmall i hi]

/-! ## Large thresholds: everything is left out -/

/-- No contribution is above the threshold. -/
structure Small (n : Nat) (base threshold : ℚ) (deg : List Nat) (s : XSt α) : Prop where
  good : Good n (leaves false) (fun _ => True) s
  task : ∀ (i : Nat) t, s.tasks[i]? = some t → match t with
    | .sum z _ => z = 0
    | .store z => z = 0
    | .share _ => s.mem.rank[i]? = some base
    | .done _ => s.mem.rank[i]? = some base
  rows : ∀ (i : Nat) z rest, s.tasks[i]? = some (.sum z rest) → ∀ e ∈ rest, e.1 < n ∧ 0 < deg.getD e.1 0
  contribs : ∀ c, some c ∈ s.mem.contrib → c ≤ threshold
  defined : ∀ j, s.mem.contrib[j]? = some none → deg.getD j 0 = 0

theorem Small.step {n : Nat} {base d threshold : ℚ} {deg : List Nat} (hlen : deg.length = n) (hbt : base ≤ threshold) (hb0 : 0 ≤ base) {s : XSt α}
    (h : Small n base threshold deg s) {k i : Nat} {rest : List Nat} (hk : s.bs[k]? = some (i :: rest)) {t : PageRank.Task α} (hi : s.tasks[i]? = some t) :
    ∃ r, task12 base d threshold deg s.mem i t = .ok r ∧ weight r.1 < weight t ∧
      Small n base threshold deg { s with bs := s.bs.set k (if leaves false r.1 then rest else i :: rest), tasks := s.tasks.set i r.1, mem := r.2 } := by
  have hin : i ∈ s.bs.flatten := (flatten_split hk).symm.subset (by simp)
  have hl := (h.good.holds i t hi).1 hin
  have hlt := h.good.lt i hin
  have ht := h.task i t hi
  have g1 := h.good.l1
  have g2 := h.good.l2
  cases t with
  | sum z row =>
    dsimp only at ht
    subst ht
    cases row with
    | nil =>
      refine ⟨(.store 0, s.mem), rfl, by simp [weight], h.good.step hk rfl rfl trivial, ?_, ?_, h.contribs, h.defined⟩
      · intro j t' hj
        rcases getElem?_set_cases hj with ⟨rfl, rfl⟩ | ⟨-, hj'⟩
        · rfl
        · exact h.task j t' hj'
      · intro j z r hj
        rcases getElem?_set_cases hj with ⟨rfl, h'⟩ | ⟨-, hj'⟩
        · cases h'
        · exact h.rows j z r hj'
    | cons e row =>
      obtain ⟨e1, e2⟩ := h.rows i _ _ hi e (by simp)
      have hc : ∃ c, s.mem.contrib[e.1]? = some (some c) := by
        have hlt' : e.1 < s.mem.contrib.length := by omega
        cases hc : s.mem.contrib[e.1] with
        | none =>
          have := h.defined e.1 (by rw [List.getElem?_eq_getElem hlt', hc])
          omega
        | some c => exact ⟨c, by rw [List.getElem?_eq_getElem hlt', hc]⟩
      obtain ⟨c, hc⟩ := hc
      have hct := h.contribs c (List.mem_of_getElem? hc)
      refine ⟨(.sum 0 row, s.mem), ?_, by simp [weight], h.good.step hk rfl rfl trivial, ?_, ?_, h.contribs, h.defined⟩
      · unfold task12
        dsimp only
        rw [vget_eq_ok.2 hc, res_bind_ok]
        dsimp only
        rw [if_neg (by linarith)]; rfl
      · intro j t' hj
        rcases getElem?_set_cases hj with ⟨rfl, rfl⟩ | ⟨-, hj'⟩
        · rfl
        · exact h.task j t' hj'
      · intro j z r hj
        rcases getElem?_set_cases hj with ⟨rfl, h'⟩ | ⟨-, hj'⟩
        · cases h'
          exact fun x hx => h.rows i _ _ hi x (by simp [hx])
        · exact h.rows j z r hj'
  | store z =>
    dsimp only at ht
    subst ht
    have hb : base + d * 0 = base := by ring
    refine ⟨(.share |base - s.mem.rank[i]|, { s.mem with rank := s.mem.rank.set i base }), ?_, by simp [weight], h.good.step hk (by simp) rfl trivial, ?_, ?_, h.contribs, h.defined⟩
    · rw [show task12 base d threshold deg s.mem i (.store 0 : PageRank.Task α) = taskStep base d deg s.mem i (.store 0) from rfl]
      unfold taskStep
      dsimp only
      rw [vget_of_lt (by omega), res_bind_ok, hb, vset_of_lt (by omega), res_bind_ok, vget_of_lt (by simp; omega), res_bind_ok]
      simp [res_pure]
    · intro j t' hj
      rcases getElem?_set_cases hj with ⟨rfl, rfl⟩ | ⟨hne, hj'⟩
      · exact List.getElem?_set_self (by omega)
      · have := h.task j t' hj'
        cases t' with
        | sum => exact this
        | store => exact this
        | share => exact (List.getElem?_set_ne hne).trans this
        | done => exact (List.getElem?_set_ne hne).trans this
    · intro j z r hj
      rcases getElem?_set_cases hj with ⟨rfl, h'⟩ | ⟨-, hj'⟩
      · cases h'
      · exact h.rows j z r hj'
  | share e =>
    dsimp only at ht
    refine ⟨(.done e, { s.mem with contrib := s.mem.contrib.set i (quot base (deg.getD i 0)) }), ?_, by simp [weight], h.good.step hk rfl (by simp) trivial, ?_, ?_, ?_, ?_⟩
    · rw [show task12 base d threshold deg s.mem i (.share e : PageRank.Task α) = taskStep base d deg s.mem i (.share e) from rfl]
      unfold taskStep
      dsimp only
      have e4 : vget deg i = .ok (deg.getD i 0) := by
        rw [vget_of_lt (by omega), List.getD_eq_getElem?_getD, List.getElem?_eq_getElem (by omega)]; rfl
      rw [vget_eq_ok.2 ht, res_bind_ok, e4, res_bind_ok, vset_of_lt (by omega), res_bind_ok]; rfl
    · intro j t' hj
      rcases getElem?_set_cases hj with ⟨rfl, rfl⟩ | ⟨hne, hj'⟩
      · exact ht
      · exact h.task j t' hj'
    · intro j z r hj
      rcases getElem?_set_cases hj with ⟨rfl, h'⟩ | ⟨-, hj'⟩
      · cases h'
      · exact h.rows j z r hj'
    · intro c hc
      rcases List.mem_or_eq_of_mem_set hc with h1 | h1
      · exact h.contribs c h1
      · unfold quot at h1
        split at h1
        · cases h1
        · rename_i hk0
          cases h1
          have e3 : (1 : ℚ) ≤ (deg.getD i 0 : ℚ) := by exact_mod_cast Nat.pos_of_ne_zero hk0
          exact le_trans (div_le_self hb0 e3) hbt
    · intro j hj
      rcases getElem?_set_cases hj with ⟨rfl, h'⟩ | ⟨-, hj'⟩
      · unfold quot at h'
        split at h'
        · assumption
        · cases h'
      · exact h.defined j hj'
  | done e => cases hl

/-- C93.  If the threshold is at least `1 / n` (with the usual `10⁻⁴`: from ten thousand vertices on), `page_rank_v12` gives every vertex the score `(1 - d) / n`, whatever the links,
under every schedule; the PageRank of every vertex with a link to it is larger if `d > 0`. -/
theorem page_rank_v12_ignores_links (g : Rows α) (deg : List Nat) (d threshold : ℚ) (maxIters : Nat) (rank : List ℚ) (hu : Usable g deg d rank)
    (hbig : 1 / (g.length : ℚ) ≤ threshold) (hmax : 0 < maxIters) :
    v12 g deg d threshold maxIters rank (fun r => r.1 = List.replicate g.length ((1 - d) / g.length)) ∧
    ∀ p, IsPageRank g (fun j => deg.getD j 0) d p → 0 < d → ∀ i j, Edge g i j → (1 - d) / g.length < p i := by
  have hpos : 0 < g.length := by cases g with | nil => exact absurd rfl hu.nonempty | cons => simp
  have hn : (0 : ℚ) < g.length := by exact_mod_cast hpos
  have hd0 := hu.d0
  have hd1 := hu.d1
  have hb0 : 0 ≤ (1 - d) / (g.length : ℚ) := div_nonneg (by linarith) hn.le
  have hbt : (1 - d) / (g.length : ℚ) ≤ threshold := le_trans (div_le_div_of_nonneg_right (by linarith) hn.le) hbig
  have hused : ∀ i j, Edge g i j → 0 < deg.getD j 0 := by
    obtain ⟨p, hp⟩ := exists_pageRank g hu.inRange (fun j => deg.getD j 0) hu.degrees hu.d0 hu.d1
    exact (Ctx.Ok.of_isPageRank hu.nonempty hu.inRange hu.len hu.degrees threshold hu.d0 hu.d1 maxIters hp).used
  refine ⟨?_, ?_⟩
  · refine ⟨_, start_eq hu.len hu.rankLen, ?_⟩
    obtain ⟨k, rfl⟩ : ∃ k, maxIters = k + 1 := ⟨maxIters - 1, by omega⟩
    refine ⟨⟨[List.range g.length], by simp [stretches]⟩, fun bs hbs => ?_⟩
    have hfresh : ∀ (left rounds : Nat) (bs : List (List Nat)) (m : Mem), stretches g.length bs → m.rank.length = g.length → m.contrib.length = g.length →
        (∀ c, some c ∈ m.contrib → c ≤ threshold) → (∀ j : Nat, m.contrib[j]? = some none → deg.getD j 0 = 0) →
        Small g.length ((1 - d) / g.length) threshold deg { left := left, rounds := rounds, bs := bs, tasks := tasks g, mem := m } := by
      intro left rounds bs m h0 h1 h2 h3 h4
      refine ⟨Good.fresh h1 h2 (by rw [h0]) (fun _ => rfl) fun _ => trivial, ?_, ?_, h3, h4⟩
      · intro i t hi
        unfold PageRank.tasks at hi
        rw [List.getElem?_map] at hi
        cases hr : g[i]? with
        | none => rw [hr] at hi; cases hi
        | some row => rw [hr] at hi; cases hi; rfl
      · intro i z rest hi e he
        unfold PageRank.tasks at hi
        rw [List.getElem?_map] at hi
        cases hr : g[i]? with
        | none => rw [hr] at hi; cases hi
        | some row =>
          rw [hr] at hi; cases hi
          have hedge : Edge g i e.1 := by
            unfold Edge nbrs
            rw [List.getD_eq_getElem?_getD, hr]
            exact List.mem_map_of_mem he
          exact ⟨hu.inRange i _ hedge, hused i _ hedge⟩
    refine Sure.of_inv (Prod.lex Nat.lt_wfRel Nat.lt_wfRel).wf (fun s : XSt α => (s.left, (s.tasks.map weight).sum)) (Small g.length ((1 - d) / g.length) threshold deg) ?_ ?_ _
      (hfresh k 0 bs _ hbs (by simp) (by simp) ?_ ?_)
    · intro s hs
      exact xstep_go ⟨[List.range g.length], by simp [stretches]⟩ s
    · intro s o hs ho
      cases ho with
      | @task k i rest t hk ht =>
        left
        obtain ⟨r, r1, r2, r3⟩ := hs.step (d := d) hu.len hbt hb0 hk ht
        rw [r1]
        exact ⟨_, rfl, r3, Prod.Lex.right _ (sum_map_set_lt weight ht r2)⟩
      | @missing k i rest hk ht =>
        have hin : i ∈ s.bs.flatten := (flatten_split hk).symm.subset (by simp)
        have := hs.good.lt i hin
        rw [← hs.good.l3] at this
        rw [List.getElem?_eq_getElem this] at ht
        cases ht
      | join hb bs' hc =>
        have hall := hs.good.all hb
        have hres : s.mem.rank = List.replicate g.length ((1 - d) / g.length) := by
          refine List.eq_replicate_iff.2 ⟨hs.good.l1, fun x hx => ?_⟩
          obtain ⟨i, hi⟩ := List.getElem?_of_mem hx
          have hlt : i < s.tasks.length := by
            rw [hs.good.l3, ← hs.good.l1]; exact (List.getElem?_eq_some_iff.1 hi).1
          have h1 := hs.task i _ (List.getElem?_eq_getElem hlt)
          have h2 := hall _ (List.getElem_mem hlt)
          cases ht : s.tasks[i] with
          | done e => rw [ht] at h1; rw [h1] at hi; exact (Option.some.inj hi).symm
          | share e => rw [ht] at h2; cases h2
          | store e => rw [ht] at h2; cases h2
          | sum e => rw [ht] at h2; cases h2
        unfold xEnd
        split
        · right; exact ⟨_, rfl, hres⟩
        · cases hleft : s.left with
          | zero => right; exact ⟨_, rfl, hres⟩
          | succ k =>
            left
            exact ⟨_, rfl, hfresh _ _ _ _ hc hs.good.l1 hs.good.l2 hs.contribs hs.defined, Prod.Lex.left _ _ (Nat.lt_succ_self k)⟩
    · intro c hc
      obtain ⟨i, hi, hq⟩ := List.mem_map.1 hc
      have hi := List.mem_range.1 hi
      rw [List.getD_eq_getElem?_getD, List.getElem?_replicate, if_pos hi, Option.getD_some] at hq
      unfold quot at hq
      split at hq
      · cases hq
      · rename_i hk0
        cases hq
        have e3 : (1 : ℚ) ≤ (deg.getD i 0 : ℚ) := by exact_mod_cast Nat.pos_of_ne_zero hk0
        exact le_trans (div_le_self (by positivity) e3) hbig
    · intro j hj
      have hjl : j < g.length := by
        have := (List.getElem?_eq_some_iff.1 hj).1
        simpa using this
      simp only at hj
      rw [range_map_get hjl] at hj
      unfold quot at hj
      split at hj
      · assumption
      · cases hj
  · intro p hp hd i j he
    have hbd := pageRank_bounds g hu.inRange _ hu.degrees hu.d0 hu.d1 hp
    have hi : i < g.length := he.src_lt
    have hj := hu.inRange i j he
    have hnn : ∀ k, k < g.length → 0 ≤ p k := fun k hk => le_trans hb0 (hbd k hk).1
    have hpj : 0 < p j := lt_of_lt_of_le (div_pos (by linarith) hn) (hbd j hj).1
    have hq : 0 < p j / (deg.getD j 0 : ℚ) := div_pos hpj (by exact_mod_cast hused i j he)
    rw [hp i hi]
    have : p j / (deg.getD j 0 : ℚ) ≤ ((nbrs g i).map fun j => p j / ((fun j => deg.getD j 0) j : ℚ)).sum := by
      refine sum_ge (l := (nbrs g i).map fun j => p j / (deg.getD j 0 : ℚ)) ?_ (List.mem_map_of_mem (f := fun j => p j / (deg.getD j 0 : ℚ)) he)
      intro x hx
      obtain ⟨k, hk, rfl⟩ := List.mem_map.1 hx
      exact div_nonneg (hnn k (hu.inRange i k hk)) (by positivity)
    nlinarith

/-- A threshold of a third. -/
example : v12 ([[(1, ()), (2, ())], [(0, ())], [(0, ())]] : Rows Unit) [2, 1, 1] (17 / 20) (1 / 3) 1000 [0, 0, 0]
    (fun r => r.1 = List.replicate 3 ((1 - 17 / 20 : ℚ) / ((3 : Nat) : ℚ))) :=
  (page_rank_v12_ignores_links ([[(1, ()), (2, ())], [(0, ())], [(0, ())]] : Rows Unit) [2, 1, 1] (17 / 20) (1 / 3) 1000 [0, 0, 0]
    ⟨by simp, by decide, rfl, by decide, by norm_num, by norm_num, rfl⟩ (by norm_num) (by omega)).1

/-- A threshold small enough. -/
example : ∃ p : Nat → ℚ, v12 ([[(1, ()), (2, ())], [(0, ())], [(0, ())]] : Rows Unit) [2, 1, 1] (17 / 20) (1 / 10000) 1000 [0, 0, 0]
      (Approx ([[(1, ()), (2, ())], [(0, ())], [(0, ())]] : Rows Unit) (17 / 20) (1 / 10000) 1000 p) := by
  obtain ⟨p, h1, -, -, -⟩ := page_rank_converges ([[(1, ()), (2, ())], [(0, ())], [(0, ())]] : Rows Unit) (by simp) (by decide) [2, 1, 1] rfl (by decide) (17 / 20) (1 / 10000)
    (by norm_num) (by norm_num) 1000 [0, 0, 0] rfl
  refine ⟨p, page_rank_v12_partial _ [2, 1, 1] _ _ _ [0, 0, 0] ⟨by simp, by decide, rfl, by decide, by norm_num, by norm_num, rfl⟩ (by norm_num) ?_ p h1⟩
  intro i hi
  match i with
  | 0 => norm_num
  | 1 => norm_num
  | 2 => norm_num
  | i + 3 => simp at hi

end NW.PageRankExp
