import Verif.Lemmas.BkTree

/-!
# The growth of the trees of `bk_maxflow`
-/

namespace NW.Bk
open Spec BackEdge
open MaxFlow (place)

variable {R : Type} [CommRing R] [LinearOrder R]

namespace St
def r (st : St R) : Nat → Nat → R := res st.net
def cp (st : St R) (v : Nat) : R := st.cap.getD v 0
def pr (st : St R) (v : Nat) : Option Nat := st.preds.getD v none
def ti (st : St R) (v : Nat) : Bool := st.tid.getD v false
def tr (st : St R) (v : Nat) : Option (Loc × Loc) := st.trees.getD v none
def tsf (st : St R) (v : Nat) : Nat := st.ts.getD v 0
def ds (st : St R) (v : Nat) : Nat := st.dist.getD v 0
/-- The number of vertices outside the trees. -/
def nulls (st : St R) : Nat := st.preds.count none
end St

/-- The invariant of the trees. -/
structure Ok (g0 : Rows R) (st : St R) : Prop where
  good : Good g0 st.net
  lcap : st.cap.length = g0.length
  ltid : st.tid.length = g0.length
  lpreds : st.preds.length = g0.length
  ltrees : st.trees.length = g0.length
  lts : st.ts.length = g0.length
  ldist : st.dist.length = g0.length
  inv : TI g0 st.r st.cp st.pr st.ti st.tr st.tsf st.ds st.gtime

section
variable {g0 : Rows R} {st : St R}

theorem Ok.getCap (h : Ok g0 st) {v : Nat} (hv : v < g0.length) : vget st.cap v = .ok (st.cp v) := vget_getD _ (by rw [h.lcap]; exact hv)
theorem Ok.getTid (h : Ok g0 st) {v : Nat} (hv : v < g0.length) : vget st.tid v = .ok (st.ti v) := vget_getD _ (by rw [h.ltid]; exact hv)
theorem Ok.getPred (h : Ok g0 st) {v : Nat} (hv : v < g0.length) : vget st.preds v = .ok (st.pr v) := vget_getD _ (by rw [h.lpreds]; exact hv)
theorem Ok.getTree (h : Ok g0 st) {v : Nat} (hv : v < g0.length) : vget st.trees v = .ok (st.tr v) := vget_getD _ (by rw [h.ltrees]; exact hv)
theorem Ok.getTs (h : Ok g0 st) {v : Nat} (hv : v < g0.length) : vget st.ts v = .ok (st.tsf v) := vget_getD _ (by rw [h.lts]; exact hv)
theorem Ok.getDist (h : Ok g0 st) {v : Nat} (hv : v < g0.length) : vget st.dist v = .ok (st.ds v) := vget_getD _ (by rw [h.ldist]; exact hv)
theorem Ok.setCap (h : Ok g0 st) {v : Nat} (hv : v < g0.length) (x : R) : vset st.cap v x = .ok (st.cap.set v x) := vset_of_lt (by rw [h.lcap]; exact hv)
theorem Ok.setTid (h : Ok g0 st) {v : Nat} (hv : v < g0.length) (x : Bool) : vset st.tid v x = .ok (st.tid.set v x) := vset_of_lt (by rw [h.ltid]; exact hv)
theorem Ok.setPred (h : Ok g0 st) {v : Nat} (hv : v < g0.length) (x : Option Nat) : vset st.preds v x = .ok (st.preds.set v x) := vset_of_lt (by rw [h.lpreds]; exact hv)
theorem Ok.setTree (h : Ok g0 st) {v : Nat} (hv : v < g0.length) (x : Option (Loc × Loc)) : vset st.trees v x = .ok (st.trees.set v x) :=
  vset_of_lt (by rw [h.ltrees]; exact hv)
theorem Ok.setTs (h : Ok g0 st) {v : Nat} (hv : v < g0.length) (x : Nat) : vset st.ts v x = .ok (st.ts.set v x) := vset_of_lt (by rw [h.lts]; exact hv)
theorem Ok.setDist (h : Ok g0 st) {v : Nat} (hv : v < g0.length) (x : Nat) : vset st.dist v x = .ok (st.dist.set v x) := vset_of_lt (by rw [h.ldist]; exact hv)

theorem Ok.target (h : Ok g0 st) (t : Bool) : st.target t = tgt g0.length t := by unfold St.target tgt; rw [h.good.len]

end

theorem count_none_set {l : List (Option Nat)} {v : Nat} (hv : v < l.length) (x : Option Nat) :
    (l.set v x).count none + (if l.getD v none = none then 1 else 0) = l.count none + (if x = none then 1 else 0) := by
  rw [List.count_set hv]
  have e : l.getD v none = l[v] := by rw [List.getD_eq_getElem?_getD, List.getElem?_eq_getElem hv]; rfl
  rw [e]
  by_cases c : l[v] = none
  · have : 0 < l.count none := List.count_pos_iff.2 (c ▸ List.getElem_mem hv)
    simp [c]
    omega
  · simp [c]

/-- What the growth does to the state. -/
structure Grow (g0 : Rows R) (st0 st : St R) : Prop where
  ok : Ok g0 st
  hung : Hung g0.length st.pr
  net : st.net = st0.net
  cap : st.cap = st0.cap
  mf : st.mf = st0.mf
  orphans : st.orphans = st0.orphans
  gtime : st.gtime = st0.gtime
  act : ∃ s, st.active = st0.active ++ s
  lt : ∀ x ∈ st.active, x < g0.length
  cnt : st.active.length + st.nulls = st0.active.length + st0.nulls
  keep : ∀ v, st0.pr v ≠ none → st.pr v ≠ none ∧ st.ti v = st0.ti v

theorem Grow.trans {g0 : Rows R} {a b c : St R} (h : Grow g0 a b) (h' : Grow g0 b c) : Grow g0 a c := by
  refine ⟨h'.ok, h'.hung, h'.net.trans h.net, h'.cap.trans h.cap, h'.mf.trans h.mf, h'.orphans.trans h.orphans, h'.gtime.trans h.gtime, ?_, h'.lt, h'.cnt.trans h.cnt, ?_⟩
  · obtain ⟨s, hs⟩ := h.act
    obtain ⟨s', hs'⟩ := h'.act
    exact ⟨s ++ s', by rw [hs', hs, List.append_assoc]⟩
  · intro v hv
    obtain ⟨h1, h2⟩ := h.keep v hv
    obtain ⟨h3, h4⟩ := h'.keep v h1
    exact ⟨h3, h4.trans h2⟩

theorem Grow.refl {g0 : Rows R} {a : St R} (h : Ok g0 a) (hh : Hung g0.length a.pr) (hlt : ∀ x ∈ a.active, x < g0.length) : Grow g0 a a :=
  ⟨h, hh, rfl, rfl, rfl, rfl, rfl, ⟨[], by simp⟩, hlt, rfl, fun _ hv => ⟨hv, rfl⟩⟩

/-- An edge that joins the trees. -/
structure IsConn (g0 : Rows R) (st : St R) (c : Conn) : Prop where
  edge : Edge g0 c.2.2.1 c.2.2.2
  rc : c.1 = place g0 c.2.2.1 c.2.2.2
  brc : c.2.1 = place g0 c.2.2.2 c.2.2.1
  prs : st.pr c.2.2.1 ≠ none
  prt : st.pr c.2.2.2 ≠ none
  tis : st.ti c.2.2.1 = false
  tit : st.ti c.2.2.2 = true
  pos : 0 < st.r c.2.2.1 c.2.2.2

theorem reach_ok {g0 : Rows R} {st : St R} (hs : Simple g0) (hg : InRange g0) (h : Ok g0 st) (hh : Hung g0.length st.pr) (hlt : ∀ x ∈ st.active, x < g0.length) {p q : Nat} (hpr : st.pr p ≠ none)
    (he : Edge g0 p q) (hpos : 0 < tres st.r (st.ti p) p q) :
    (reach st p q (st.ti p) (tpair g0 (st.ti p) p q).1 (tpair g0 (st.ti p) p q).2 = .ok none ∧ st.pr q ≠ none ∧ st.ti q ≠ st.ti p) ∨
    ∃ st', reach st p q (st.ti p) (tpair g0 (st.ti p) p q).1 (tpair g0 (st.ti p) p q).2 = .ok (some st') ∧ Grow g0 st st' := by
  have hp : p < g0.length := he.src_lt
  have hq : q < g0.length := hg _ _ he
  have hne : p ≠ q := by rintro rfl; exact (hs p).2 he
  have hT := h.inv
  unfold reach
  rw [h.getPred hq, res_bind_ok]
  cases hpq : st.pr q with
  | none =>
    right
    dsimp only
    rw [h.setTid hq, res_bind_ok, h.setPred hq, res_bind_ok, h.setTree hq, res_bind_ok, h.getTs hp, res_bind_ok, h.setTs hq, res_bind_ok, h.getDist hp, res_bind_ok, h.setDist hq, res_bind_ok]
    refine ⟨_, rfl, ?_⟩
    have e1 : ∀ w, (st.preds.set q (some p)).getD w none = if w = q then some p else st.pr w := fun w => getD_set _ _ _ _ _ (by rw [h.lpreds]; exact hq)
    have e2 : ∀ w, (st.tid.set q (st.ti p)).getD w false = if w = q then st.ti p else st.ti w := fun w => getD_set _ _ _ _ _ (by rw [h.ltid]; exact hq)
    have e3 : ∀ w, (st.trees.set q (some ((tpair g0 (st.ti p) p q).1, (tpair g0 (st.ti p) p q).2))).getD w none = if w = q then some (tpair g0 (st.ti p) p q) else st.tr w :=
      fun w => getD_set _ _ _ _ _ (by rw [h.ltrees]; exact hq)
    have e4 : ∀ w, (st.ts.set q (st.tsf p)).getD w 0 = if w = q then st.tsf p else st.tsf w := fun w => getD_set _ _ _ _ _ (by rw [h.lts]; exact hq)
    have e5 : ∀ w, (st.dist.set q (st.ds p + 1)).getD w 0 = if w = q then st.ds p + 1 else st.ds w := fun w => getD_set _ _ _ _ _ (by rw [h.ldist]; exact hq)
    have nochild : ∀ x, st.pr x ≠ some q := fun x hx => hh x q hx hq hpq
    refine ⟨⟨h.good, h.lcap, ?_, ?_, ?_, ?_, ?_, ?_⟩, ?_, rfl, rfl, rfl, rfl, rfl, ⟨[q], rfl⟩, ?_, ?_, ?_⟩
    · simpa using h.ltid
    · simpa using h.lpreds
    · simpa using h.ltrees
    · simpa using h.lts
    · simpa using h.ldist
    · refine hT.attach hp hq hne he e1 e2 e3 (fun w hw => (e4 w).trans (if_neg hw)) (fun w hw => (e5 w).trans (if_neg hw)) ?_ hpos ?_ ?_
      · show (st.ts.set q (st.tsf p)).getD q 0 ≤ _
        rw [e4, if_pos rfl]; exact hT.time p
      · right
        constructor
        · show (st.ts.set q (st.tsf p)).getD q 0 = (st.ts.set q (st.tsf p)).getD p 0
          rw [e4, e4, if_pos rfl, if_neg hne]
        · show (st.dist.set q (st.ds p + 1)).getD p 0 < (st.dist.set q (st.ds p + 1)).getD q 0
          rw [e5, e5, if_pos rfl, if_neg hne]; omega
      · intro x _ hx
        exact absurd hx (nochild x)
    · intro v u hv hu
      change (st.preds.set q (some p)).getD v none = some u at hv
      show (st.preds.set q (some p)).getD u none ≠ none
      rw [e1] at hv ⊢
      by_cases c : u = q
      · rw [if_pos c]; simp
      · rw [if_neg c]
        by_cases c2 : v = q
        · rw [if_pos c2] at hv; cases hv; exact hpr
        · rw [if_neg c2] at hv; exact hh v u hv hu
    · intro x hx
      rcases List.mem_append.1 hx with hx | hx
      · exact hlt x hx
      · rw [List.mem_singleton.1 hx]; exact hq
    · have := count_none_set (l := st.preds) (v := q) (by rw [h.lpreds]; exact hq) (some p)
      rw [show st.preds.getD q none = none from hpq] at this
      simp at this
      show (st.active ++ [q]).length + (st.preds.set q (some p)).count none = _
      unfold St.nulls
      rw [List.length_append, List.length_singleton]
      omega
    · intro v hv
      have : v ≠ q := by rintro rfl; exact hv hpq
      constructor
      · show (st.preds.set q (some p)).getD v none ≠ none
        rw [e1, if_neg this]; exact hv
      · show (st.tid.set q (st.ti p)).getD v false = _
        rw [e2, if_neg this]
  | some y =>
    dsimp only
    rw [h.getTid hq, res_bind_ok]
    by_cases ct : st.ti q = st.ti p
    · right
      rw [if_neg (by simpa using ct), h.getTs hq, res_bind_ok, h.getTs hp, res_bind_ok, h.getDist hq, res_bind_ok, h.getDist hp, res_bind_ok]
      by_cases cc : st.tsf q ≤ st.tsf p ∧ st.ds q > st.ds p
      · rw [if_pos cc, h.setPred hq, res_bind_ok, h.setTree hq, res_bind_ok, h.setTs hq, res_bind_ok, h.setDist hq, res_bind_ok]
        refine ⟨_, rfl, ?_⟩
        have e1 : ∀ w, (st.preds.set q (some p)).getD w none = if w = q then some p else st.pr w := fun w => getD_set _ _ _ _ _ (by rw [h.lpreds]; exact hq)
        have e2 : ∀ w, st.ti w = if w = q then st.ti p else st.ti w := fun w => by
          split
          · rename_i c; rw [c, ct]
          · rfl
        have e3 : ∀ w, (st.trees.set q (some ((tpair g0 (st.ti p) p q).1, (tpair g0 (st.ti p) p q).2))).getD w none = if w = q then some (tpair g0 (st.ti p) p q) else st.tr w :=
          fun w => getD_set _ _ _ _ _ (by rw [h.ltrees]; exact hq)
        have e4 : ∀ w, (st.ts.set q (st.tsf p)).getD w 0 = if w = q then st.tsf p else st.tsf w := fun w => getD_set _ _ _ _ _ (by rw [h.lts]; exact hq)
        have e5 : ∀ w, (st.dist.set q (st.ds p + 1)).getD w 0 = if w = q then st.ds p + 1 else st.ds w := fun w => getD_set _ _ _ _ _ (by rw [h.ldist]; exact hq)
        refine ⟨⟨h.good, h.lcap, h.ltid, ?_, ?_, ?_, ?_, ?_⟩, ?_, rfl, rfl, rfl, rfl, rfl, ⟨[], by simp⟩, hlt, ?_, ?_⟩
        · simpa using h.lpreds
        · simpa using h.ltrees
        · simpa using h.lts
        · simpa using h.ldist
        · refine hT.attach hp hq hne he e1 e2 e3 (fun w hw => (e4 w).trans (if_neg hw)) (fun w hw => (e5 w).trans (if_neg hw)) ?_ hpos ?_ ?_
          · show (st.ts.set q (st.tsf p)).getD q 0 ≤ _
            rw [e4, if_pos rfl]; exact hT.time p
          · right
            constructor
            · show (st.ts.set q (st.tsf p)).getD q 0 = (st.ts.set q (st.tsf p)).getD p 0
              rw [e4, e4, if_pos rfl, if_neg hne]
            · show (st.dist.set q (st.ds p + 1)).getD p 0 < (st.dist.set q (st.ds p + 1)).getD q 0
              rw [e5, e5, if_pos rfl, if_neg hne]; omega
          · intro x hxq hx
            refine ⟨(hT.tree x q hx hq).symm.trans ct, ?_⟩
            have := hT.rank x q hx hq
            unfold Above at this ⊢
            show (st.ts.set q (st.tsf p)).getD x 0 < (st.ts.set q (st.tsf p)).getD q 0 ∨ (st.ts.set q (st.tsf p)).getD x 0 = (st.ts.set q (st.tsf p)).getD q 0 ∧ (st.dist.set q (st.ds p + 1)).getD q 0 < (st.dist.set q (st.ds p + 1)).getD x 0
            rw [e4, e4, e5, e5, if_pos rfl, if_pos rfl, if_neg hxq, if_neg hxq]
            omega
        · intro v u hv hu
          change (st.preds.set q (some p)).getD v none = some u at hv
          show (st.preds.set q (some p)).getD u none ≠ none
          rw [e1] at hv ⊢
          by_cases c : u = q
          · rw [if_pos c]; simp
          · rw [if_neg c]
            by_cases c2 : v = q
            · rw [if_pos c2] at hv; cases hv; exact hpr
            · rw [if_neg c2] at hv; exact hh v u hv hu
        · have := count_none_set (l := st.preds) (v := q) (by rw [h.lpreds]; exact hq) (some p)
          rw [show st.preds.getD q none = some y from hpq] at this
          simp at this
          show st.active.length + (st.preds.set q (some p)).count none = _
          unfold St.nulls
          omega
        · intro v hv
          refine ⟨?_, rfl⟩
          show (st.preds.set q (some p)).getD v none ≠ none
          rw [e1]
          split
          · simp
          · exact hv
      · rw [if_neg cc]
        exact ⟨st, rfl, Grow.refl h hh hlt⟩
    · left
      rw [if_pos ct]
      exact ⟨rfl, by simp, ct⟩

theorem growEdges_ok {g0 : Rows R} {tol : R} (ht : 0 ≤ tol) (hs : Simple g0) (hg : InRange g0) (hy : Symm g0) {p : Nat} {t : Bool} (ls : List Loc) :
    ∀ st : St R, Ok g0 st → Hung g0.length st.pr → (∀ x ∈ st.active, x < g0.length) → st.pr p ≠ none → st.ti p = t → (∀ l ∈ ls, ∃ u, Edge g0 p u ∧ l = place g0 p u) →
    ∃ st' c, growEdges tol p t st ls = .ok (st', c) ∧ Grow g0 st st' ∧ ∀ k, c = some k → IsConn g0 st' k := by
  induction ls with
  | nil =>
    intro st h hh hlt _ _ _
    exact ⟨st, none, rfl, Grow.refl h hh hlt, by simp⟩
  | cons l ls ih =>
    intro st h hh hlt hpr htp hls
    subst htp
    obtain ⟨q, he, rfl⟩ := hls l (by simp)
    have hls' : ∀ l ∈ ls, ∃ u, Edge g0 p u ∧ l = place g0 p u := fun l hl => hls l (List.mem_cons_of_mem _ hl)
    have hst : ({ st with net := st.net } : St R) = st := rfl
    have next : ∀ st', Grow g0 st st' → ∃ st'' c, growEdges tol p (st.ti p) st' ls = .ok (st'', c) ∧ Grow g0 st st'' ∧ ∀ k, c = some k → IsConn g0 st'' k := by
      intro st' hg'
      obtain ⟨h1, h2⟩ := hg'.keep p hpr
      obtain ⟨st'', c, h3, h4, h5⟩ := ih st' hg'.ok hg'.hung hg'.lt h1 h2 hls'
      exact ⟨st'', c, h3, hg'.trans h4, h5⟩
    unfold growEdges
    rw [read_place h.good he, res_bind_ok]
    dsimp only
    cases ct : st.ti p with
    | true =>
      rw [if_pos rfl, getBack_place h.good hs hy he, res_bind_ok]
      dsimp only
      rw [read_place h.good (hy _ _ he), res_bind_ok, hst]
      dsimp only
      by_cases c : res st.net q p ≤ tol
      · rw [if_pos c]
        have := next st (Grow.refl h hh hlt)
        rw [ct] at this
        exact this
      · rw [if_neg c]
        have hpos : 0 < st.r q p := lt_of_le_of_lt ht (not_le.1 c)
        have hr := reach_ok hs hg h hh hlt hpr he (by unfold tres; rw [ct, if_pos rfl]; exact hpos)
        have e : tpair g0 (st.ti p) p q = (place g0 q p, place g0 p q) := by unfold tpair; rw [ct, if_pos rfl]
        rw [e, ct] at hr
        rcases hr with ⟨r1, r2, r3⟩ | ⟨st', r1, r2⟩
        · rw [r1, res_bind_ok]
          exact ⟨st, _, rfl, Grow.refl h hh hlt, fun k hk => by
            cases hk
            exact ⟨hy _ _ he, rfl, rfl, r2, hpr, by simpa using r3, ct, hpos⟩⟩
        · rw [r1, res_bind_ok]
          have := next st' r2
          rw [ct] at this
          exact this
    | false =>
      rw [if_neg (by simp)]
      by_cases c : res st.net p q ≤ tol
      · rw [if_pos c]
        have := next st (Grow.refl h hh hlt)
        rw [ct] at this
        exact this
      · rw [if_neg c, getBack_place h.good hs hy he, res_bind_ok, hst]
        dsimp only
        have hpos : 0 < st.r p q := lt_of_le_of_lt ht (not_le.1 c)
        have hr := reach_ok hs hg h hh hlt hpr he (by unfold tres; rw [ct, if_neg (by simp)]; exact hpos)
        have e : tpair g0 (st.ti p) p q = (place g0 p q, place g0 q p) := by unfold tpair; rw [ct, if_neg (by simp)]
        rw [e, ct] at hr
        rcases hr with ⟨r1, r2, r3⟩ | ⟨st', r1, r2⟩
        · rw [r1, res_bind_ok]
          exact ⟨st, _, rfl, Grow.refl h hh hlt, fun k hk => by
            cases hk
            exact ⟨he, rfl, rfl, hpr, r2, ct, by simpa using r3, hpos⟩⟩
        · rw [r1, res_bind_ok]
          have := next st' r2
          rw [ct] at this
          exact this

/-- Between the phases. -/
structure Rest (g0 : Rows R) (st0 st : St R) : Prop where
  ok : Ok g0 st
  hung : Hung g0.length st.pr
  net : st.net = st0.net
  cap : st.cap = st0.cap
  mf : st.mf = st0.mf
  orphans : st.orphans = []
  lt : ∀ x ∈ st.active, x < g0.length

theorem grow_ok {g0 : Rows R} {tol : R} (ht : 0 ≤ tol) (hs : Simple g0) (hg : InRange g0) (hy : Symm g0) {st0 : St R} (h0 : Rest g0 st0 st0) :
    Run.Gives (Run.loop (growRound tol) st0) fun o => Rest g0 st0 o.1 ∧ ∀ c, o.2 = some c → IsConn g0 o.1 c ∧ ∀ v, o.1.tsf v < o.1.gtime := by
  refine Run.gives_loop (fun st => Rest g0 st0 st) (fun st => st.active.length + st.nulls) ?_ st0 h0
  intro st h
  unfold growRound
  cases ha : st.active with
  | nil =>
    right
    exact ⟨_, rfl, h, by simp⟩
  | cons p rest =>
    dsimp only
    have hp : p < g0.length := h.lt p (by rw [ha]; simp)
    rw [h.ok.getPred hp, res_bind_ok]
    cases hpp : st.pr p with
    | none =>
      left
      refine ⟨_, rfl, ⟨⟨h.ok.good, h.ok.lcap, h.ok.ltid, h.ok.lpreds, h.ok.ltrees, h.ok.lts, h.ok.ldist, h.ok.inv⟩, h.hung, h.net, h.cap, h.mf, h.orphans, fun x hx => h.lt x (by rw [ha]; exact List.mem_cons_of_mem _ hx)⟩, ?_⟩
      show rest.length + st.nulls < (p :: rest).length + st.nulls
      rw [List.length_cons]; omega
    | some y =>
      dsimp only
      rw [h.ok.getTid hp, res_bind_ok]
      obtain ⟨ls, l1, l2, -⟩ := inner_ok h.ok.good hs hy hp
      rw [l1, res_bind_ok]
      obtain ⟨st', c, e1, e2, e3⟩ := growEdges_ok ht hs hg hy ls st h.ok h.hung h.lt (by rw [hpp]; simp) rfl l2
      rw [e1, res_bind_ok]
      dsimp only
      have hok : Ok g0 { st' with gtime := st'.gtime + 1 } :=
        ⟨e2.ok.good, e2.ok.lcap, e2.ok.ltid, e2.ok.lpreds, e2.ok.ltrees, e2.ok.lts, e2.ok.ldist, e2.ok.inv.retime e2.ok.inv.rank fun v => Nat.le_succ_of_le (e2.ok.inv.time v)⟩
      cases c with
      | some c =>
        right
        refine ⟨_, rfl, ⟨hok, e2.hung, e2.net.trans h.net, e2.cap.trans h.cap, e2.mf.trans h.mf, e2.orphans.trans h.orphans, e2.lt⟩, ?_⟩
        intro c' hc
        cases hc
        have k := e3 c rfl
        exact ⟨⟨k.edge, k.rc, k.brc, k.prs, k.prt, k.tis, k.tit, k.pos⟩, fun v => Nat.lt_succ_of_le (e2.ok.inv.time v)⟩
      | none =>
        left
        obtain ⟨s, hs'⟩ := e2.act
        rw [ha] at hs'
        have hs'' : st'.active = p :: (rest ++ s) := hs'
        rw [hs'']
        refine ⟨_, rfl, ⟨⟨hok.good, hok.lcap, hok.ltid, hok.lpreds, hok.ltrees, hok.lts, hok.ldist, hok.inv⟩, e2.hung, e2.net.trans h.net, e2.cap.trans h.cap, e2.mf.trans h.mf,
          e2.orphans.trans h.orphans, fun x hx => e2.lt x (by rw [hs'']; exact List.mem_cons_of_mem _ hx)⟩, ?_⟩
        have := e2.cnt
        rw [hs'', ha, List.length_cons] at this
        show (rest ++ s).length + st'.nulls < _
        omega

end NW.Bk
