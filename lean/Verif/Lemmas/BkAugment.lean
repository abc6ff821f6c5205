import Verif.Lemmas.BkGrow
import Verif.Lemmas.MaxFlowSearch
import Mathlib.Algebra.BigOperators.Group.Finset.Piecewise

/-!
# The augmentation of `bk_maxflow`
-/

namespace NW.Bk
open Spec BackEdge
open MaxFlow (place gives_loop_step gives_loop_done)

variable {R : Type} [CommRing R] [LinearOrder R] [IsStrictOrderedRing R]

/-- How much can be sent between `w` and its parent. -/
def lim (n : Nat) (r : Nat → Nat → R) (cp : Nat → R) (pr : Nat → Option Nat) (t : Bool) (w : Nat) : R :=
  match pr w with
  | none => 0
  | some u => if u = tgt n t then (if t = true then - cp w else cp w) else tres r t u w

omit [LinearOrder R] [IsStrictOrderedRing R] in
theorem read_tpair {g0 : Rows R} {s : BE R} (h : Good g0 s) (hy : Symm g0) {u v : Nat} (he : Edge g0 u v) (t : Bool) :
    ∃ x, read s (tpair g0 t u v).1 = .ok (x, tres (res s) t u v) := by
  unfold tpair tres
  cases t with
  | true => exact ⟨_, read_place h (hy _ _ he)⟩
  | false => exact ⟨_, read_place h he⟩

omit [IsStrictOrderedRing R] in
theorem lim_pos {g0 : Rows R} {st : St R} (h : Ok g0 st) {t : Bool} {w : Nat} (ht : st.ti w = t) (hw : st.pr w ≠ none) : 0 < lim g0.length st.r st.cp st.pr t w := by
  unfold lim
  cases hp : st.pr w with
  | none => exact absurd hp hw
  | some u =>
    dsimp only
    by_cases c : u = tgt g0.length t
    · rw [if_pos c]
      subst c
      have := h.inv.root w (by rw [ht]; exact hp)
      rw [ht] at this; exact this
    · rw [if_neg c]
      have hu : u < g0.length := (h.inv.lt w u hp).resolve_right (by rw [ht]; exact c)
      have := h.inv.pos w u hp hu
      rw [ht] at this; exact this

omit [IsStrictOrderedRing R] in
theorem min_ok {g0 : Rows R} {st : St R} (hy : Symm g0) (h : Ok g0 st) {t : Bool} {v : Nat} {vs : List Nat} (hu : Up g0.length st.pr t v vs) :
    st.ti v = t → ∀ m0, Run.Gives (Run.loop (minRound st t) (v, m0)) fun m => m ≤ m0 ∧ (∀ w ∈ vs, m ≤ lim g0.length st.r st.cp st.pr t w) ∧ (0 < m0 → 0 < m) := by
  induction hu with
  | @root v e =>
    intro ht m0
    have hv := h.inv.dom v _ e
    have hne : v ≠ tgt g0.length t := not_tgt hv
    have hl : lim g0.length st.r st.cp st.pr t v = if t = true then - st.cp v else st.cp v := by unfold lim; rw [e]; simp
    have hp := lim_pos h ht (by rw [e]; simp)
    refine gives_loop_step (s' := (tgt g0.length t, min m0 (if t = true then - st.cp v else st.cp v))) ?_ ?_
    · unfold minRound
      simp only [h.target, if_neg hne, h.getPred hv, res_bind_ok, e, if_pos, h.getCap hv, res_pure]
    · refine gives_loop_done (r := min m0 (if t = true then - st.cp v else st.cp v)) ?_ ?_
      · unfold minRound
        simp only [h.target, if_pos, res_pure]
      · rw [← hl]
        exact ⟨min_le_left _ _, by simp, fun h0 => lt_min h0 hp⟩
  | @step v u vs e hu h' ih =>
    intro ht m0
    have hv := h.inv.dom v _ e
    have hne : v ≠ tgt g0.length t := not_tgt hv
    have hne' : u ≠ tgt g0.length t := not_tgt hu
    have hl : lim g0.length st.r st.cp st.pr t v = tres st.r t u v := by unfold lim; rw [e]; simp [hne']
    have hp := lim_pos h ht (by rw [e]; simp)
    have ht' : st.ti u = t := (h.inv.tree v u e hu).trans ht
    have hptr := h.inv.ptr v u e hu
    rw [ht] at hptr
    obtain ⟨x, hx⟩ := read_tpair h.good hy (h.inv.edge v u e hu) t
    refine gives_loop_step (s' := (u, min m0 (tres st.r t u v))) ?_ ?_
    · unfold minRound treeEdge
      have hne'' : ¬ (some u = some (tgt g0.length t)) := fun h => hne' (Option.some.inj h)
      simp only [h.target, if_neg hne, h.getPred hv, res_bind_ok, e, if_neg hne'', h.getTree hv, hptr, res_pure, hx]
      rfl
    · refine (ih ht' _).mono ?_
      rintro m ⟨m1, m2, m3⟩
      refine ⟨m1.trans (min_le_left _ _), fun w hw => ?_, fun h0 => m3 (lt_min h0 (hl ▸ hp))⟩
      rcases List.mem_cons.1 hw with rfl | hw
      · rw [hl]; exact m1.trans (min_le_right _ _)
      · exact m2 w hw

/-- The queue of orphans: vertices outside the trees, among them all on which others hang. -/
structure Orph (g0 : Rows R) (st : St R) : Prop where
  nodup : st.orphans.Nodup
  lt : ∀ w ∈ st.orphans, w < g0.length
  null : ∀ w ∈ st.orphans, st.pr w = none
  all : ∀ v u, st.pr v = some u → u < g0.length → st.pr u = none → u ∈ st.orphans

/-- The frame of the augmentation. -/
structure Aug (g0 : Rows R) (t : Bool) (st st' : St R) : Prop where
  ok : Ok g0 st'
  orph : Orph g0 st'
  tid : st'.tid = st.tid
  ts : st'.ts = st.ts
  gtime : st'.gtime = st.gtime
  active : st'.active = st.active
  mf : st'.mf = st.mf
  pr : ∀ w, st'.pr w = st.pr w ∨ st'.pr w = none
  other : ∀ w, st.ti w ≠ t → st'.pr w = st.pr w ∧ st'.cp w = st.cp w
  rother : ∀ a b, st.ti a ≠ t ∨ st.ti b ≠ t → st'.r a b = st.r a b
  sym : ∀ a b, st'.r a b + st'.r b a = st.r a b + st.r b a
  sgn : ∀ w, (0 ≤ st.cp w → 0 ≤ st'.cp w ∧ st'.cp w ≤ st.cp w) ∧ (st.cp w ≤ 0 → st.cp w ≤ st'.cp w ∧ st'.cp w ≤ 0)

omit [IsStrictOrderedRing R] in
theorem Aug.trans {g0 : Rows R} {t : Bool} {a b c : St R} (h : Aug g0 t a b) (h' : Aug g0 t b c) : Aug g0 t a c := by
  have ti : ∀ w, b.ti w = a.ti w := fun w => by unfold St.ti; rw [h.tid]
  refine ⟨h'.ok, h'.orph, h'.tid.trans h.tid, h'.ts.trans h.ts, h'.gtime.trans h.gtime, h'.active.trans h.active, h'.mf.trans h.mf, ?_, ?_, ?_, ?_, ?_⟩
  · intro w
    rcases h'.pr w with e | e
    · rw [e]; exact h.pr w
    · exact Or.inr e
  · intro w hw
    obtain ⟨h1, h2⟩ := h.other w hw
    obtain ⟨h3, h4⟩ := h'.other w (by rw [ti]; exact hw)
    exact ⟨h3.trans h1, h4.trans h2⟩
  · intro x y hxy
    exact (h'.rother x y (by rw [ti, ti]; exact hxy)).trans (h.rother x y hxy)
  · intro x y
    exact (h'.sym x y).trans (h.sym x y)
  · intro w
    obtain ⟨h1, h2⟩ := h.sgn w
    obtain ⟨h3, h4⟩ := h'.sgn w
    exact ⟨fun h0 => ⟨(h3 (h1 h0).1).1, (h3 (h1 h0).1).2.trans (h1 h0).2⟩, fun h0 => ⟨(h2 h0).1.trans (h4 (h2 h0).2).1, (h4 (h2 h0).2).2⟩⟩

/-- What leaves `v` and is not accounted for. -/
def bal (n : Nat) (st : St R) (v : Nat) : R := ∑ u ∈ Finset.range n, st.r v u - st.cp v

/-- The capacity that is left on the arcs of the source. -/
def possum (n : Nat) (st : St R) : R := ∑ v ∈ Finset.range n, max (st.cp v) 0

omit [LinearOrder R] [IsStrictOrderedRing R] in
theorem sum_shift {n : Nat} {r r' : Nat → Nat → R} {a b : Nat} {m : R} (ha : a < n) (hb : b < n) (hab : a ≠ b)
    (h : ∀ x y, r' x y = if x = a ∧ y = b then r a b - m else if x = b ∧ y = a then r b a + m else r x y) (w : Nat) :
    ∑ u ∈ Finset.range n, r' w u = ∑ u ∈ Finset.range n, r w u - (if w = a then m else 0) + (if w = b then m else 0) := by
  have e : ∀ u, r' w u = r w u + ((if u = b then (if w = a then -m else 0) else 0) + (if u = a then (if w = b then m else 0) else 0)) := by
    intro u
    rw [h]
    by_cases c1 : w = a <;> by_cases c2 : w = b <;> by_cases c3 : u = a <;> by_cases c4 : u = b
    all_goals first
      | (exfalso; apply hab; rw [← c1, ← c2])
      | (exfalso; apply hab; rw [← c3, ← c4])
      | simp_all <;> ring
  rw [Finset.sum_congr rfl fun u _ => e u, Finset.sum_add_distrib, Finset.sum_add_distrib, Finset.sum_ite_eq' (Finset.range n) b, Finset.sum_ite_eq' (Finset.range n) a,
    if_pos (Finset.mem_range.2 ha), if_pos (Finset.mem_range.2 hb)]
  split <;> split <;> ring

/-- The effect on the vertex where the walk starts. -/
def sg (t : Bool) (m : R) : R := if t = true then m else -m

omit [CommRing R] [LinearOrder R] [IsStrictOrderedRing R] in
theorem dirs {g0 : Rows R} (hy : Symm g0) (t : Bool) {u v : Nat} (he : Edge g0 u v) :
    ∃ a b, ((t = true ∧ a = v ∧ b = u) ∨ (t = false ∧ a = u ∧ b = v)) ∧ Edge g0 a b ∧ tpair g0 t u v = (place g0 a b, place g0 b a) ∧ ∀ r : Nat → Nat → R, tres r t u v = r a b := by
  cases t with
  | true => exact ⟨v, u, Or.inl ⟨rfl, rfl, rfl⟩, hy _ _ he, rfl, fun r => rfl⟩
  | false => exact ⟨u, v, Or.inr ⟨rfl, rfl, rfl⟩, he, rfl, fun r => rfl⟩

/-- What the walk needs to know about the vertices it has not reached. -/
structure Ahead (g0 : Rows R) (t : Bool) (v : Nat) (st st' : St R) : Prop where
  pr : ∀ w, w ≠ v → st'.pr w = st.pr w
  lim : ∀ w, w ≠ v → st.ti w = t → lim g0.length st.r st.cp st.pr t w ≤ lim g0.length st'.r st'.cp st'.pr t w

omit [CommRing R] [LinearOrder R] [IsStrictOrderedRing R] in
theorem Orph.push {g0 : Rows R} {st st' : St R} (h : Orph g0 st) {v u : Nat} (hv : v < g0.length) (hp : st.pr v = some u) (hpr : ∀ w, st'.pr w = if w = v then none else st.pr w)
    (ho : st'.orphans = st.orphans ++ [v]) : Orph g0 st' := by
  have hn : v ∉ st.orphans := fun hm => by rw [h.null v hm] at hp; cases hp
  refine ⟨?_, ?_, ?_, ?_⟩
  · rw [ho]
    exact List.nodup_append.2 ⟨h.nodup, by simp, fun a ha b hb => by rw [List.mem_singleton.1 hb]; rintro rfl; exact hn ha⟩
  · intro w hw
    rw [ho] at hw
    rcases List.mem_append.1 hw with hw | hw
    · exact h.lt w hw
    · rw [List.mem_singleton.1 hw]; exact hv
  · intro w hw
    rw [ho] at hw
    rw [hpr]
    split
    · rfl
    · rcases List.mem_append.1 hw with hw | hw
      · exact h.null w hw
      · rename_i c; exact absurd (List.mem_singleton.1 hw) c
  · intro x y hx hy' hyn
    rw [ho]
    rw [hpr] at hx hyn
    split at hx
    · cases hx
    · by_cases c : y = v
      · rw [c]; simp
      · rw [if_neg c] at hyn
        exact List.mem_append_left _ (h.all x y hx hy' hyn)

omit [CommRing R] [LinearOrder R] [IsStrictOrderedRing R] in
theorem Orph.same {g0 : Rows R} {st st' : St R} (h : Orph g0 st) (hpr : st'.preds = st.preds) (ho : st'.orphans = st.orphans) : Orph g0 st' := by
  have e : st'.pr = st.pr := by unfold St.pr; rw [hpr]
  exact ⟨ho ▸ h.nodup, ho ▸ h.lt, by rw [ho, e]; exact h.null, by rw [ho, e]; exact h.all⟩

theorem aug_edge {g0 : Rows R} {st : St R} (hs : Simple g0) (hg : InRange g0) (hy : Symm g0) (h : Ok g0 st) (ho : Orph g0 st) {t : Bool} {v u : Nat} (hp : st.pr v = some u) (hu : u < g0.length)
    (ht : st.ti v = t) {m : R} (hm : 0 < m) (hle : m ≤ tres st.r t u v) :
    ∃ st', augRound t m (v, st) = .ok (.inl (u, st')) ∧ Aug g0 t st st' ∧ Ahead g0 t v st st' ∧ (∀ w, st'.cp w = st.cp w) ∧
      ∀ w, bal g0.length st' w = bal g0.length st w - (if w = v then sg t m else 0) + (if w = u then sg t m else 0) := by
  have hv := h.inv.dom v _ hp
  have hne : v ≠ tgt g0.length t := not_tgt hv
  have hne' : ¬ (some u = some (tgt g0.length t)) := fun h => not_tgt hu (Option.some.inj h)
  have he := h.inv.edge v u hp hu
  have htu : st.ti u = t := (h.inv.tree v u hp hu).trans ht
  have hptr := h.inv.ptr v u hp hu
  rw [ht] at hptr
  have huv : u ≠ v := by rintro rfl; exact (hs u).2 he
  obtain ⟨a, b, hab, hE, hpair, htres⟩ := dirs hy t he
  rw [htres] at hle
  obtain ⟨net', n1, n2, n3⟩ := shift_ok h.good hs hy hE m
  have hna : a ≠ b := by rintro rfl; exact (hs a).2 hE
  have hta : st.ti a = t ∧ st.ti b = t := by rcases hab with ⟨-, rfl, rfl⟩ | ⟨-, rfl, rfl⟩ <;> exact ⟨by assumption, by assumption⟩
  have hrab : res net' a b = st.r a b - m := by rw [n3, if_pos ⟨rfl, rfl⟩]; rfl
  have hge : ∀ x y, ¬ (x = a ∧ y = b) → st.r x y ≤ res net' x y := by
    intro x y hxy
    rw [n3, if_neg hxy]
    split
    · rename_i c
      rw [c.1, c.2]
      show res st.net b a ≤ _
      linarith
    · exact le_refl _
  have hn : ∀ x y, 0 ≤ res net' x y := by
    intro x y
    by_cases c : x = a ∧ y = b
    · rw [c.1, c.2, hrab]; linarith
    · exact (h.inv.nonneg x y).trans (hge x y c)
  have hother : ∀ w x, st.pr w = some x → x < g0.length → w ≠ v → tres st.r (st.ti w) x w ≤ tres (res net') (st.ti w) x w := by
    intro w x hw hx hwv
    have htw := h.inv.tree w x hw hx
    unfold tres
    split
    · rename_i c
      refine hge w x ?_
      rintro ⟨rfl, rfl⟩
      rcases hab with ⟨-, e, -⟩ | ⟨e, e', -⟩
      · exact hwv e
      · rw [hta.1, e] at c; cases c
    · rename_i c
      refine hge x w ?_
      rintro ⟨rfl, rfl⟩
      rcases hab with ⟨e, -, -⟩ | ⟨-, -, e⟩
      · rw [hta.2] at c; exact c e
      · exact hwv e
  have hbal : ∀ st' : St R, st'.net = net' → (∀ w, st'.cp w = st.cp w) → ∀ w, bal g0.length st' w = bal g0.length st w - (if w = v then sg t m else 0) + (if w = u then sg t m else 0) := by
    intro st' e1 e2 w
    unfold bal
    have := sum_shift (n := g0.length) (r := st.r) (r' := st'.r) (m := m) hE.src_lt (hg _ _ hE) hna (by unfold St.r; rw [e1]; exact n3) w
    rw [this, e2]
    unfold sg
    rcases hab with ⟨rfl, rfl, rfl⟩ | ⟨rfl, rfl, rfl⟩
    · simp only [if_true]; ring
    · simp only [Bool.false_eq_true, if_false]
      by_cases c1 : w = a <;> by_cases c2 : w = b <;> simp only [c1, c2, if_true, if_false, hna, hna.symm] <;> ring
  have hsym : ∀ x y, res net' x y + res net' y x = st.r x y + st.r y x := by
    intro x y
    have e1 := n3 x y
    have e2 := n3 y x
    show _ = res st.net x y + res st.net y x
    by_cases c1 : x = a ∧ y = b
    · rw [if_pos c1] at e1
      rw [if_neg (fun h => hna (c1.1.symm.trans h.2)), if_pos ⟨c1.2, c1.1⟩] at e2
      rw [e1, e2, c1.1, c1.2]; ring
    · rw [if_neg c1] at e1
      by_cases c2 : x = b ∧ y = a
      · rw [if_pos c2] at e1
        rw [if_pos ⟨c2.2, c2.1⟩] at e2
        rw [e1, e2, c2.1, c2.2]; ring
      · rw [if_neg c2] at e1
        rw [if_neg (fun h => c2 ⟨h.2, h.1⟩), if_neg (fun h => c1 ⟨h.2, h.1⟩)] at e2
        rw [e1, e2]
  have hroth : ∀ x y, st.ti x ≠ t ∨ st.ti y ≠ t → res net' x y = st.r x y := by
    intro x y hxy
    have c1 : ¬ (x = a ∧ y = b) := by rintro ⟨rfl, rfl⟩; rcases hxy with c | c <;> [exact c hta.1; exact c hta.2]
    have c2 : ¬ (x = b ∧ y = a) := by rintro ⟨rfl, rfl⟩; rcases hxy with c | c <;> [exact c hta.2; exact c hta.1]
    rw [n3, if_neg c1, if_neg c2]; rfl
  have hlim : ∀ st' : St R, st'.net = net' → (∀ w, st'.cp w = st.cp w) → (∀ w, w ≠ v → st'.pr w = st.pr w) → Ahead g0 t v st st' := by
    intro st' e1 e2 e3
    refine ⟨e3, fun w hw htw => ?_⟩
    unfold lim
    rw [e3 w hw, e2 w]
    cases hpw : st.pr w with
    | none => exact le_refl _
    | some x =>
      dsimp only
      by_cases c : x = tgt g0.length t
      · rw [if_pos c, if_pos c]
      · rw [if_neg c, if_neg c]
        have := hother w x hpw ((h.inv.lt w x hpw).resolve_right (by rw [htw]; exact c)) hw
        rw [htw] at this
        unfold St.r at this ⊢
        rw [e1]; exact this
  have hread : read net' (place g0 a b) = .ok (b, res net' a b) := read_place n2 hE
  by_cases c : res net' a b ≤ 0
  · refine ⟨{ st with net := net', preds := st.preds.set v none, orphans := st.orphans ++ [v] }, ?_, ?_, hlim _ rfl (fun _ => rfl) ?_, fun _ => rfl, hbal _ rfl fun _ => rfl⟩
    · unfold augRound treeEdge
      simp only [h.target, if_neg hne, h.getPred hv, res_bind_ok, hp, if_neg hne', h.getTree hv, hptr, hpair, res_pure, n1, hread, if_pos c, h.setPred hv]
    · have e1 : ∀ w, (st.preds.set v none).getD w none = if w = v then none else st.pr w := fun w => getD_set _ _ _ _ _ (by rw [h.lpreds]; exact hv)
      refine ⟨⟨n2, h.lcap, h.ltid, by simpa using h.lpreds, h.ltrees, h.lts, h.ldist, ?_⟩, ho.push hv hp e1 rfl, rfl, rfl, rfl, rfl, rfl, ?_, ?_, hroth, hsym, ?_⟩
      · have hd : ∀ w x, (st.preds.set v none).getD w none = some x → w ≠ v ∧ st.pr w = some x := by
          intro w x hw
          rw [e1] at hw
          split at hw
          · cases hw
          · rename_i c; exact ⟨c, hw⟩
        refine (h.inv.detach (pr' := fun w => (st.preds.set v none).getD w none) fun w x hw => (hd w x hw).2).recap hn (fun w hw => h.inv.root w (hd w _ hw).2) ?_
        intro w x hw hx
        obtain ⟨d1, d2⟩ := hd w x hw
        exact lt_of_lt_of_le (h.inv.pos w x d2 hx) (hother w x d2 hx d1)
      · intro w
        show (st.preds.set v none).getD w none = _ ∨ (st.preds.set v none).getD w none = _
        rw [e1]
        split
        · exact Or.inr rfl
        · exact Or.inl rfl
      · intro w hw
        refine ⟨?_, rfl⟩
        show (st.preds.set v none).getD w none = _
        rw [e1, if_neg (by rintro rfl; exact hw ht)]
      · exact fun w => ⟨fun h => ⟨h, le_refl _⟩, fun h => ⟨le_refl _, h⟩⟩
    · intro w hw
      show (st.preds.set v none).getD w none = _
      rw [getD_set _ _ _ _ _ (by rw [h.lpreds]; exact hv), if_neg hw]; rfl
  · refine ⟨{ st with net := net' }, ?_, ?_, hlim _ rfl (fun _ => rfl) (fun _ _ => rfl), fun _ => rfl, hbal _ rfl fun _ => rfl⟩
    · unfold augRound treeEdge
      simp only [h.target, if_neg hne, h.getPred hv, res_bind_ok, hp, if_neg hne', h.getTree hv, hptr, hpair, res_pure, n1, hread, if_neg c]
    · refine ⟨⟨n2, h.lcap, h.ltid, h.lpreds, h.ltrees, h.lts, h.ldist, ?_⟩, ho.same rfl rfl, rfl, rfl, rfl, rfl, rfl, fun _ => Or.inl rfl, fun _ _ => ⟨rfl, rfl⟩, hroth, hsym, ?_⟩
      · refine h.inv.recap hn h.inv.root ?_
        intro w x hw hx
        by_cases c2 : w = v
        · subst c2
          rw [hp] at hw; cases hw
          rw [ht, htres]
          exact not_le.1 c
        · exact lt_of_lt_of_le (h.inv.pos w x hw hx) (hother w x hw hx c2)
      · exact fun w => ⟨fun h => ⟨h, le_refl _⟩, fun h => ⟨le_refl _, h⟩⟩

omit [LinearOrder R] [IsStrictOrderedRing R] in
theorem sum_set {n : Nat} {f f' : Nat → R} {v : Nat} (hv : v < n) {d : R} (h : ∀ w, f' w = if w = v then f v + d else f w) : ∑ w ∈ Finset.range n, f' w = ∑ w ∈ Finset.range n, f w + d := by
  have e : ∀ w, f' w = f w + (if w = v then d else 0) := by
    intro w
    rw [h]
    split
    · rename_i c; rw [c]
    · rw [add_zero]
  rw [Finset.sum_congr rfl fun w _ => e w, Finset.sum_add_distrib, Finset.sum_ite_eq', if_pos (Finset.mem_range.2 hv)]

theorem aug_root {g0 : Rows R} {st : St R} (h : Ok g0 st) (ho : Orph g0 st) {t : Bool} {v : Nat} (hp : st.pr v = some (tgt g0.length t))
    (ht : st.ti v = t) {m : R} (hm : 0 < m) (hle : m ≤ if t = true then - st.cp v else st.cp v) :
    ∃ st', augRound t m (v, st) = .ok (.inl (tgt g0.length t, st')) ∧ Aug g0 t st st' ∧ possum g0.length st' = possum g0.length st - (if t = true then 0 else m) ∧
      ∀ w, bal g0.length st' w = bal g0.length st w - (if w = v then sg t m else 0) := by
  have hv := h.inv.dom v _ hp
  have hne : v ≠ tgt g0.length t := not_tgt hv
  have hroot := h.inv.root v (by rw [ht]; exact hp)
  rw [ht] at hroot
  have ecap : ∀ (x : R) w, (st.cap.set v x).getD w 0 = if w = v then x else st.cp w := fun x w => getD_set _ _ _ _ _ (by rw [h.lcap]; exact hv)
  have hbal : ∀ st' : St R, st'.net = st.net → st'.cap = st.cap.set v (if t = true then st.cp v + m else st.cp v - m) →
      possum g0.length st' = possum g0.length st - (if t = true then 0 else m) ∧ ∀ w, bal g0.length st' w = bal g0.length st w - (if w = v then sg t m else 0) := by
    intro st' e1 e2
    have ecp : ∀ w, st'.cp w = if w = v then (if t = true then st.cp v + m else st.cp v - m) else st.cp w := fun w => by unfold St.cp; rw [e2, ecap]; rfl
    constructor
    · unfold possum
      rw [sum_set (f := fun w => max (st.cp w) 0) (f' := fun w => max (st'.cp w) 0) hv (d := - (if t = true then 0 else m)) ?_]
      · ring
      · intro w
        rw [ecp]
        split
        · cases t with
          | true =>
            simp only [if_true] at *
            rw [max_eq_right (by linarith), max_eq_right (by linarith)]; ring
          | false =>
            simp only [Bool.false_eq_true, if_false] at *
            rw [max_eq_left (by linarith), max_eq_left (by linarith)]; ring
        · rfl
    · intro w
      unfold bal St.r
      rw [e1, ecp]
      split
      · rename_i c
        unfold sg
        rw [c]
        cases t <;> simp <;> ring
      · ring
  have haug : ∀ st' : St R, st'.net = st.net → st'.cap = st.cap.set v (if t = true then st.cp v + m else st.cp v - m) → st'.tid = st.tid → st'.trees = st.trees → st'.ts = st.ts → st'.dist = st.dist →
      st'.gtime = st.gtime → st'.active = st.active → st'.mf = st.mf → Orph g0 st' → st'.preds.length = g0.length → (∀ w, st'.pr w = st.pr w ∨ st'.pr w = none ∧ w = v) →
      (st'.pr v = none ∨ (if t = true then st.cp v + m < 0 else 0 < st.cp v - m)) → Aug g0 t st st' := by
    intro st' e1 e2 e3 e4 e5 e6 e7 e8 e9 ho' hl hpr hv'
    have ecp : ∀ w, st'.cp w = if w = v then (if t = true then st.cp v + m else st.cp v - m) else st.cp w := fun w => by unfold St.cp; rw [e2, ecap]; rfl
    have eti : st'.ti = st.ti := by unfold St.ti; rw [e3]
    have etr : st'.tr = st.tr := by unfold St.tr; rw [e4]
    have ets : st'.tsf = st.tsf := by unfold St.tsf; rw [e5]
    have eds : st'.ds = st.ds := by unfold St.ds; rw [e6]
    have er : st'.r = st.r := by unfold St.r; rw [e1]
    refine ⟨⟨e1 ▸ h.good, by rw [e2]; simpa using h.lcap, e3 ▸ h.ltid, hl, e4 ▸ h.ltrees, e5 ▸ h.lts, e6 ▸ h.ldist, ?_⟩, ho', e3, e5, e7, e8, e9, fun w => (hpr w).imp id And.left, ?_, ?_, ?_, ?_⟩
    · have hd : ∀ w x, st'.pr w = some x → st.pr w = some x := by
        intro w x hw
        rcases hpr w with e | ⟨e, -⟩
        · rw [← e]; exact hw
        · rw [e] at hw; cases hw
      rw [eti, etr, ets, eds, er, e7]
      refine (h.inv.detach hd).recap h.inv.nonneg ?_ (fun w x hw => h.inv.pos w x (hd w x hw))
      intro w hw
      rw [ecp]
      by_cases c : w = v
      · subst c
        rw [if_pos rfl, ht]
        rcases hv' with e | e
        · rw [e] at hw; cases hw
        · cases t with
          | true => simp only [if_true] at *; linarith
          | false => simp only [Bool.false_eq_true, if_false] at *; linarith
      · rw [if_neg c]
        exact h.inv.root w (hd w _ hw)
    · intro w hw
      have c : w ≠ v := by rintro rfl; exact hw ht
      refine ⟨?_, by rw [ecp, if_neg c]⟩
      rcases hpr w with e | ⟨-, e⟩
      · exact e
      · exact absurd e c
    · intro x y _; rw [er]
    · intro x y; rw [er]
    · intro w
      rw [ecp]
      by_cases c : w = v
      · subst c
        rw [if_pos rfl]
        cases t with
        | true =>
          simp only [if_true] at *
          exact ⟨fun h => by linarith, fun h => ⟨by linarith, by linarith⟩⟩
        | false =>
          simp only [Bool.false_eq_true, if_false] at *
          exact ⟨fun h => ⟨by linarith, by linarith⟩, fun h => by linarith⟩
      · rw [if_neg c]
        exact ⟨fun h => ⟨h, le_refl _⟩, fun h => ⟨le_refl _, h⟩⟩
  by_cases c : if t = true then 0 ≤ (if t = true then st.cp v + m else st.cp v - m) else (if t = true then st.cp v + m else st.cp v - m) ≤ 0
  · refine ⟨{ st with cap := st.cap.set v (if t = true then st.cp v + m else st.cp v - m), preds := st.preds.set v none, orphans := st.orphans ++ [v] }, ?_, ?_, hbal _ rfl rfl⟩
    · unfold augRound
      simp only [h.target, if_neg hne, h.getPred hv, res_bind_ok, hp, if_true, h.getCap hv, h.setCap hv, if_pos c, h.setPred hv, res_pure]
    · have e1 : ∀ w, (st.preds.set v none).getD w none = if w = v then none else st.pr w := fun w => getD_set _ _ _ _ _ (by rw [h.lpreds]; exact hv)
      refine haug _ rfl rfl rfl rfl rfl rfl rfl rfl rfl (ho.push hv hp e1 rfl) (by simpa using h.lpreds) ?_ (Or.inl ((e1 v).trans (if_pos rfl)))
      intro w
      show (st.preds.set v none).getD w none = _ ∨ (st.preds.set v none).getD w none = _ ∧ _
      rw [e1]
      split
      · exact Or.inr ⟨rfl, by assumption⟩
      · exact Or.inl rfl
  · refine ⟨{ st with cap := st.cap.set v (if t = true then st.cp v + m else st.cp v - m) }, ?_, ?_, hbal _ rfl rfl⟩
    · unfold augRound
      simp only [h.target, if_neg hne, h.getPred hv, res_bind_ok, hp, if_true, h.getCap hv, h.setCap hv, if_neg c, res_pure]
    · refine haug _ rfl rfl rfl rfl rfl rfl rfl rfl rfl (ho.same rfl rfl) h.lpreds (fun w => Or.inl rfl) (Or.inr ?_)
      cases t with
      | true => simpa using c
      | false => simpa using c

theorem Up.congr {n : Nat} {pr pr' : Nat → Option Nat} {t : Bool} {v : Nat} {vs : List Nat} (h : Up n pr t v vs) (he : ∀ w ∈ vs, pr' w = pr w) : Up n pr' t v vs := by
  induction h with
  | root e => exact .root ((he _ (by simp)).trans e)
  | step e hu _ ih => exact .step ((he _ (by simp)).trans e) hu (ih fun w hw => he w (List.mem_cons_of_mem _ hw))

omit [IsStrictOrderedRing R] in
theorem Up.mem_ti {g0 : Rows R} {r : Nat → Nat → R} {cp : Nat → R} {pr : Nat → Option Nat} {ti : Nat → Bool} {tr : Nat → Option (Loc × Loc)} {ts ds : Nat → Nat} {gt : Nat}
    (h : TI g0 r cp pr ti tr ts ds gt) {t : Bool} {v : Nat} {vs : List Nat} (hu : Up g0.length pr t v vs) : ti v = t → ∀ w ∈ vs, ti w = t := by
  induction hu with
  | root e =>
    intro ht w hw
    rw [List.mem_singleton.1 hw]; exact ht
  | step e hu _ ih =>
    intro ht w hw
    rcases List.mem_cons.1 hw with rfl | hw
    · exact ht
    · exact ih ((h.tree _ _ e hu).trans ht) w hw

theorem aug_ok {g0 : Rows R} (hs : Simple g0) (hg : InRange g0) (hy : Symm g0) {t : Bool} {m : R} (hm : 0 < m) (vs : List Nat) : ∀ (v : Nat) (st : St R), Ok g0 st → Orph g0 st →
    Up g0.length st.pr t v vs → st.ti v = t → (∀ w ∈ vs, m ≤ lim g0.length st.r st.cp st.pr t w) →
    Run.Gives (Run.loop (augRound t m) (v, st)) fun st' => Aug g0 t st st' ∧ possum g0.length st' = possum g0.length st - (if t = true then 0 else m) ∧
      ∀ w, bal g0.length st' w = bal g0.length st w - (if w = v then sg t m else 0) := by
  induction vs with
  | nil => intro v st _ _ hu; cases hu
  | cons v' vs ih =>
    intro v st h ho hu ht hlim
    have hnd := hu.nodup h.inv
    cases hu with
    | root e =>
      have hl := hlim v' (by simp)
      unfold lim at hl
      rw [e] at hl
      simp only [if_true] at hl
      obtain ⟨st', s1, s2, s3, s4⟩ := aug_root h ho e ht hm hl
      refine gives_loop_step s1 (gives_loop_done (r := st') ?_ ⟨s2, s3, s4⟩)
      unfold augRound
      simp only [s2.ok.target, if_true, res_pure]
    | @step _ u _ e hu' h' =>
      have hl := hlim v' (by simp)
      have hne' : u ≠ tgt g0.length t := not_tgt hu'
      unfold lim at hl
      rw [e] at hl
      simp only [if_neg hne'] at hl
      obtain ⟨st', s1, s2, s3, s4, s5⟩ := aug_edge hs hg hy h ho e hu' ht hm hl
      have hvn : v' ∉ vs := (List.nodup_cons.1 hnd.1).1
      have eti : st'.ti = st.ti := by unfold St.ti; rw [s2.tid]
      have hup : Up g0.length st'.pr t u vs := h'.congr fun w hw => s3.pr w (by rintro rfl; exact hvn hw)
      have htu : st'.ti u = t := by rw [eti]; exact (h.inv.tree v' u e hu').trans ht
      refine gives_loop_step s1 ((ih u st' s2.ok s2.orph hup htu ?_).mono ?_)
      · intro w hw
        refine (hlim w (List.mem_cons_of_mem _ hw)).trans (s3.lim w (by rintro rfl; exact hvn hw) ?_)
        exact h'.mem_ti h.inv ((h.inv.tree v' u e hu').trans ht) w hw
      · rintro st'' ⟨t1, t2, t3⟩
        refine ⟨s2.trans t1, ?_, fun w => ?_⟩
        · rw [t2]
          unfold possum
          rw [Finset.sum_congr rfl fun w _ => by rw [s4 w]]
        · rw [t3, s5]; ring

end NW.Bk
