import Verif.Lemmas.BkRound

/-!
# The start of `bk_maxflow` and the flow at its end
-/

namespace NW.Bk
open Spec BackEdge
open MaxFlow (place arc_of_not_edge)

variable {R : Type} [CommRing R] [LinearOrder R] [IsStrictOrderedRing R]

/-- Every vertex in a tree is a root. -/
def Roots (g0 : Rows R) (st : St R) : Prop := ∀ v u, st.pr v = some u → v < g0.length ∧ u = tgt g0.length (st.ti v) ∧ 0 < (if st.ti v = true then - st.cp v else st.cp v)

omit [IsStrictOrderedRing R] in
theorem Roots.inv {g0 : Rows R} {st : St R} (h : Roots g0 st) (hn : ∀ u v, 0 ≤ st.r u v) (ht : ∀ v, st.tsf v ≤ st.gtime) : TI g0 st.r st.cp st.pr st.ti st.tr st.tsf st.ds st.gtime := by
  have no : ∀ v u, st.pr v = some u → ¬ u < g0.length := fun v u e hu => not_tgt hu (h v u e).2.1
  exact ⟨hn, fun v u e => (h v u e).1, fun v u e => Or.inr (h v u e).2.1, fun v e => (h v _ e).2.2, fun v u e hu => absurd hu (no v u e), fun v u e hu => absurd hu (no v u e),
    fun v u e hu => absurd hu (no v u e), fun v u e hu => absurd hu (no v u e), fun v u e hu => absurd hu (no v u e), ht⟩

/-- The state after the first `k` vertices. -/
structure Start (g0 : Rows R) (net0 : BE R) (cap0 : List R) (k : Nat) (st : St R) : Prop where
  net : st.net = net0
  cap : st.cap = cap0
  orphans : st.orphans = []
  gtime : st.gtime = 0
  ltid : st.tid.length = g0.length
  lpreds : st.preds.length = g0.length
  ltrees : st.trees.length = g0.length
  lts : st.ts.length = g0.length
  ldist : st.dist.length = g0.length
  roots : Roots g0 st
  ts : ∀ v, st.tsf v = 0
  lt : ∀ x ∈ st.active, x < g0.length
  mf : st.mf = - ∑ v ∈ Finset.range k, max (- cap0.getD v 0) 0

theorem initVertex_ok {g0 : Rows R} {net : BE R} {cap : List R} (hn : net.g.length = g0.length) (hcap : cap.length = g0.length) {k : Nat} (hk : k < g0.length) {st : St R} (h : Start g0 net cap k st) :
    ∃ st', initVertex st k = .ok st' ∧ Start g0 net cap (k + 1) st' := by
  have htgt : ∀ t, st.target t = tgt g0.length t := fun t => by unfold St.target tgt; rw [h.net, hn]
  have hc : st.cap.getD k 0 = cap.getD k 0 := by rw [h.cap]
  have e1 : ∀ w x, (st.preds.set k x).getD w none = if w = k then x else st.pr w := fun w x => getD_set _ _ _ _ _ (by rw [h.lpreds]; exact hk)
  have e2 : ∀ w x, (st.tid.set k x).getD w false = if w = k then x else st.ti w := fun w x => getD_set _ _ _ _ _ (by rw [h.ltid]; exact hk)
  have e3 : ∀ w, (st.ts.set k 0).getD w 0 = 0 := fun w => by
    rw [getD_set _ _ _ _ _ (by rw [h.lts]; exact hk)]
    split
    · rfl
    · exact h.ts w
  have hact : ∀ x ∈ st.active ++ [k], x < g0.length := by
    intro x hx
    rcases List.mem_append.1 hx with hx | hx
    · exact h.lt x hx
    · rw [List.mem_singleton.1 hx]; exact hk
  have hroots : ∀ t : Bool, 0 < (if t = true then - st.cp k else st.cp k) → ∀ (st' : St R), st'.preds = st.preds.set k (some (tgt g0.length t)) → st'.tid = st.tid.set k t → st'.cap = st.cap →
      Roots g0 st' := by
    intro t ht st' h1 h2 h3 v u e
    unfold St.pr at e
    unfold St.ti St.cp
    rw [h1, e1] at e
    rw [h2, h3, e2]
    by_cases c : v = k
    · rw [if_pos c] at e ⊢
      cases e
      subst c
      exact ⟨hk, rfl, ht⟩
    · rw [if_neg c] at e ⊢
      exact h.roots v u e
  have hset : ∀ {X : Type} {l : List X} (x : X), l.length = g0.length → vset l k x = .ok (l.set k x) := fun x hl => vset_of_lt (by rw [hl]; exact hk)
  unfold initVertex
  rw [vget_getD 0 (by rw [h.cap, hcap]; exact hk), res_bind_ok]
  by_cases c1 : st.cap.getD k 0 > 0
  · rw [if_pos c1]
    rw [hset _ h.ltid, res_bind_ok, hset _ h.lpreds, res_bind_ok, hset _ h.ldist, res_bind_ok, hset _ h.lts, res_bind_ok]
    refine ⟨_, rfl, ⟨h.net, h.cap, h.orphans, h.gtime, by simpa using h.ltid, by simpa using h.lpreds, h.ltrees, by simpa using h.lts, by simpa using h.ldist,
      hroots false c1 _ (by rw [htgt]) rfl rfl, e3, hact, ?_⟩⟩
    rw [Finset.sum_range_succ, max_eq_right (by rw [← hc]; linarith), add_zero]
    exact h.mf
  · rw [if_neg c1]
    by_cases c2 : st.cap.getD k 0 < 0
    · rw [if_pos c2]
      rw [hset _ h.ltid, res_bind_ok, hset _ h.lpreds, res_bind_ok, hset _ h.ldist, res_bind_ok, hset _ h.lts, res_bind_ok]
      refine ⟨_, rfl, ⟨h.net, h.cap, h.orphans, h.gtime, by simpa using h.ltid, by simpa using h.lpreds, h.ltrees, by simpa using h.lts, by simpa using h.ldist,
        hroots true (by rw [if_pos rfl]; show 0 < - st.cap.getD k 0; linarith) _ (by rw [htgt]) rfl rfl, e3, hact, ?_⟩⟩
      rw [Finset.sum_range_succ, max_eq_left (by rw [← hc]; linarith), hc, h.mf]
      ring
    · rw [if_neg c2]
      refine ⟨st, rfl, { h with mf := ?_ }⟩
      rw [Finset.sum_range_succ, max_eq_right (by rw [← hc]; linarith), add_zero]
      exact h.mf

theorem init_ok {g : Rows R} {net : BE R} (hn : Good g net) (hnn : ∀ u v, 0 ≤ res net u v) {cap : List R} (hcap : cap.length = g.length) :
    ∃ st, init net cap = .ok st ∧ Rest g st st ∧ st.net = net ∧ st.cap = cap ∧ st.mf = - terminalTotal g cap := by
  have key : ∀ k, k ≤ g.length → ∃ st, (List.range k).foldlM initVertex (⟨net, cap, 0, 0, [], [], List.replicate net.g.length false, List.replicate net.g.length none,
      List.replicate net.g.length none, List.replicate net.g.length 0, List.replicate net.g.length 0⟩ : St R) = .ok st ∧ Start g net cap k st := by
    intro k
    induction k with
    | zero =>
      intro _
      have hl : ∀ {X : Type} (x : X) v, (List.replicate net.g.length x).getD v x = x := by
        intro X x v
        rw [List.getD_eq_getElem?_getD, List.getElem?_replicate]
        split <;> rfl
      refine ⟨_, rfl, ⟨rfl, rfl, rfl, rfl, by simp [hn.len], by simp [hn.len], by simp [hn.len], by simp [hn.len], by simp [hn.len], ?_, fun v => hl 0 v, by simp, by simp⟩⟩
      intro v u e
      have := hl (none : Option Nat) v
      change (List.replicate net.g.length none).getD v none = some u at e
      rw [this] at e; cases e
    | succ k ih =>
      intro hk
      obtain ⟨st, s1, s2⟩ := ih (by omega)
      obtain ⟨st', t1, t2⟩ := initVertex_ok hn.len hcap (by omega : k < g.length) s2
      refine ⟨st', ?_, t2⟩
      rw [List.range_succ, List.foldlM_append, s1, res_bind_ok, List.foldlM_cons, t1, res_bind_ok]
      rfl
  obtain ⟨st, s1, s2⟩ := key g.length (Nat.le_refl _)
  refine ⟨st, ?_, ⟨⟨by rw [s2.net]; exact hn, by rw [s2.cap]; exact hcap, s2.ltid, s2.lpreds, s2.ltrees, s2.lts, s2.ldist, s2.roots.inv ?_ ?_⟩, ?_, rfl, rfl, rfl, s2.orphans, s2.lt⟩, s2.net, s2.cap, s2.mf⟩
  · unfold init; rw [hn.len] at s1 ⊢; exact s1
  · intro u v; unfold St.r; rw [s2.net]; exact hnn u v
  · intro v; rw [s2.ts]; exact Nat.zero_le _
  · intro v u e hu
    exact absurd (s2.roots v u e).2.1 (not_tgt hu)

/-- The flow that belongs to the residual capacities. -/
def theFlow (n : Nat) (st0 st : St R) (u v : Nat) : R :=
  if u < n ∧ v < n then max (st0.r u v - st.r u v) 0
  else if u = n ∧ v < n then max (st0.cp v) 0 - max (st.cp v) 0
  else if u < n ∧ v = n + 1 then max (- st0.cp u) 0 - max (- st.cp u) 0
  else 0

theorem max_parts (a b : R) (h : a + b = 0) : max a 0 - max b 0 = a := by
  have : b = -a := by linarith
  subst this
  rcases le_total 0 a with h | h
  · rw [max_eq_left h, max_eq_right (by linarith)]; ring
  · rw [max_eq_right h, max_eq_left (by linarith)]; ring

theorem theFlow_ok {g : Rows R} {st0 st : St R} (h : FInv g.length st0 st) (hr : ∀ u v, 0 ≤ st.r u v) (hr0 : st0.r = arc g id) (hc : ∀ u v, 0 ≤ arc g id u v) :
    IsFlow (g.length + 2) (terminalCap g st0.cap) g.length (g.length + 1) (theFlow g.length st0 st) ∧
      excess (g.length + 2) (theFlow g.length st0 st) g.length = possum g.length st0 - possum g.length st := by
  have hsg : ∀ v, max (st.cp v) 0 ≤ max (st0.cp v) 0 ∧ max (- st.cp v) 0 ≤ max (- st0.cp v) 0 := by
    intro v
    obtain ⟨h1, h2⟩ := h.sgn v
    rcases le_total 0 (st0.cp v) with c | c
    · obtain ⟨h3, h4⟩ := h1 c
      rw [max_eq_left h3, max_eq_left c, max_eq_right (by linarith), max_eq_right (by linarith)]
      exact ⟨h4, le_refl _⟩
    · obtain ⟨h3, h4⟩ := h2 c
      rw [max_eq_right h4, max_eq_right c, max_eq_left (by linarith), max_eq_left (by linarith)]
      exact ⟨le_refl _, by linarith⟩
  have hparts : ∀ x : R, max x 0 - max (-x) 0 = x := fun x => max_parts x (-x) (by ring)
  refine ⟨⟨?_, ?_, ?_⟩, ?_⟩
  · intro u v _ _
    unfold theFlow
    split
    · exact le_max_right _ _
    · split
      · exact sub_nonneg.2 (hsg v).1
      · split
        · exact sub_nonneg.2 (hsg u).2
        · exact le_refl _
  · intro u v _ _
    unfold theFlow terminalCap
    split
    · refine max_le ?_ (hc u v)
      rw [hr0]; linarith [hr u v]
    · split
      · show _ ≤ max (st0.cp v) 0
        linarith [le_max_right (st.cp v) 0]
      · split
        · show _ ≤ max (- st0.cp u) 0
          linarith [le_max_right (- st.cp u) 0]
        · exact le_refl _
  · intro v hv hv1 hv2
    have hvn : v < g.length := by omega
    rw [excess_eq_net, Finset.sum_range_succ, Finset.sum_range_succ]
    have e1 : ∑ u ∈ Finset.range g.length, (theFlow g.length st0 st v u - theFlow g.length st0 st u v) = ∑ u ∈ Finset.range g.length, (st0.r v u - st.r v u) := by
      refine Finset.sum_congr rfl fun u hu => ?_
      have hu := Finset.mem_range.1 hu
      unfold theFlow
      rw [if_pos ⟨hvn, hu⟩, if_pos ⟨hu, hvn⟩]
      refine max_parts _ _ ?_
      have := h.sym v u
      linarith
    have e2 : theFlow g.length st0 st v g.length = 0 := by
      unfold theFlow
      rw [if_neg (by omega), if_neg (by omega), if_neg (by omega)]
    have e3 : theFlow g.length st0 st g.length v = max (st0.cp v) 0 - max (st.cp v) 0 := by
      unfold theFlow
      rw [if_neg (by omega), if_pos ⟨rfl, hvn⟩]
    have e4 : theFlow g.length st0 st v (g.length + 1) = max (- st0.cp v) 0 - max (- st.cp v) 0 := by
      unfold theFlow
      rw [if_neg (by omega), if_neg (by omega), if_pos ⟨hvn, rfl⟩]
    have e5 : theFlow g.length st0 st (g.length + 1) v = 0 := by
      unfold theFlow
      rw [if_neg (by omega), if_neg (by omega), if_neg (by omega)]
    rw [e1, e2, e3, e4, e5, Finset.sum_sub_distrib]
    have hb := h.bal v
    unfold bal at hb
    have p1 := hparts (st0.cp v)
    have p2 := hparts (st.cp v)
    linarith
  · rw [excess_eq_net, Finset.sum_range_succ, Finset.sum_range_succ]
    have e1 : ∑ u ∈ Finset.range g.length, (theFlow g.length st0 st g.length u - theFlow g.length st0 st u g.length) = ∑ u ∈ Finset.range g.length, (max (st0.cp u) 0 - max (st.cp u) 0) := by
      refine Finset.sum_congr rfl fun u hu => ?_
      have hu := Finset.mem_range.1 hu
      unfold theFlow
      rw [if_neg (by omega), if_pos ⟨rfl, hu⟩, if_neg (by omega), if_neg (by omega), if_neg (by omega)]
      ring
    have e4 : theFlow g.length st0 st g.length (g.length + 1) = 0 := by
      unfold theFlow
      rw [if_neg (by omega), if_neg (by omega), if_neg (by omega)]
    have e5 : theFlow g.length st0 st (g.length + 1) g.length = 0 := by
      unfold theFlow
      rw [if_neg (by omega), if_neg (by omega), if_neg (by omega)]
    rw [e1, e4, e5, Finset.sum_sub_distrib]
    unfold possum
    ring

end NW.Bk
