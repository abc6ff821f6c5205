import Verif.Lemmas.BkAugment

/-!
# The adoption of orphans in `bk_maxflow`
-/

namespace NW.Bk
open Spec BackEdge
open MaxFlow (place gives_loop_step gives_loop_done)

variable {R : Type} [CommRing R] [LinearOrder R]

/-- The vertices with the current timestamp have parents with the current timestamp. -/
def Anch (g0 : Rows R) (st : St R) : Prop :=
  ∀ v, v < g0.length → st.tsf v = st.gtime → st.pr v = some (tgt g0.length (st.ti v)) ∨ ∃ u, u < g0.length ∧ st.pr v = some u ∧ st.tsf u = st.gtime

/-- Only timestamps and distances have changed, and not those of vertices that had the current timestamp. -/
structure Marks (g0 : Rows R) (st st' : St R) : Prop where
  ok : Ok g0 st'
  anch : Anch g0 st'
  net : st'.net = st.net
  cap : st'.cap = st.cap
  mf : st'.mf = st.mf
  gtime : st'.gtime = st.gtime
  active : st'.active = st.active
  orphans : st'.orphans = st.orphans
  tid : st'.tid = st.tid
  preds : st'.preds = st.preds
  trees : st'.trees = st.trees
  mono : ∀ v, v < g0.length → st.tsf v = st.gtime → st'.tsf v = st.gtime ∧ st'.ds v = st.ds v

theorem Marks.refl {g0 : Rows R} {st : St R} (h : Ok g0 st) (ha : Anch g0 st) : Marks g0 st st := ⟨h, ha, rfl, rfl, rfl, rfl, rfl, rfl, rfl, rfl, rfl, fun _ _ h => ⟨h, rfl⟩⟩

theorem Marks.trans {g0 : Rows R} {a b c : St R} (h : Marks g0 a b) (h' : Marks g0 b c) : Marks g0 a c :=
  ⟨h'.ok, h'.anch, h'.net.trans h.net, h'.cap.trans h.cap, h'.mf.trans h.mf, h'.gtime.trans h.gtime, h'.active.trans h.active, h'.orphans.trans h.orphans, h'.tid.trans h.tid,
    h'.preds.trans h.preds, h'.trees.trans h.trees, fun v hv e => by
      obtain ⟨e1, e2⟩ := h.mono v hv e
      obtain ⟨e3, e4⟩ := h'.mono v hv (by rw [h.gtime]; exact e1)
      exact ⟨e3.trans h.gtime, e4.trans e2⟩⟩

theorem Marks.pr {g0 : Rows R} {a b : St R} (h : Marks g0 a b) : b.pr = a.pr := by unfold St.pr; rw [h.preds]
theorem Marks.ti {g0 : Rows R} {a b : St R} (h : Marks g0 a b) : b.ti = a.ti := by unfold St.ti; rw [h.tid]
theorem Marks.r {g0 : Rows R} {a b : St R} (h : Marks g0 a b) : b.r = a.r := by unfold St.r; rw [h.net]

/-- Timestamps and distances are replaced. -/
theorem Marks.mk' {g0 : Rows R} {st : St R} (h : Ok g0 st) {ts dist : List Nat} (l1 : ts.length = g0.length) (l2 : dist.length = g0.length)
    (hrank : ∀ v u, st.pr v = some u → u < g0.length → Above (fun v => ts.getD v 0) (fun v => dist.getD v 0) u v) (htime : ∀ v, ts.getD v 0 ≤ st.gtime)
    (ha : ∀ v, v < g0.length → ts.getD v 0 = st.gtime → st.pr v = some (tgt g0.length (st.ti v)) ∨ ∃ u, u < g0.length ∧ st.pr v = some u ∧ ts.getD u 0 = st.gtime)
    (hm : ∀ v, v < g0.length → st.tsf v = st.gtime → ts.getD v 0 = st.gtime ∧ dist.getD v 0 = st.ds v) : Marks g0 st { st with ts := ts, dist := dist } :=
  ⟨⟨h.good, h.lcap, h.ltid, h.lpreds, h.ltrees, l1, l2, h.inv.retime hrank htime⟩, ha, rfl, rfl, rfl, rfl, rfl, rfl, rfl, rfl, rfl, hm⟩

/-- The vertices from `v` up to the first one with the current timestamp. -/
inductive Climb (n : Nat) (st : St R) : Nat → List Nat → Nat → Prop
  | here {v : Nat} (h : st.tsf v = st.gtime) : Climb n st v [] v
  | up {v u w : Nat} {vs : List Nat} (hn : st.tsf v ≠ st.gtime) (h : st.pr v = some u) (hu : u < n) (h' : Climb n st u vs w) : Climb n st v (v :: vs) w

omit [CommRing R] [LinearOrder R] in
theorem Climb.end {n : Nat} {st : St R} {v w : Nat} {vs : List Nat} (h : Climb n st v vs w) : st.tsf w = st.gtime ∧ ∀ x ∈ vs, st.tsf x ≠ st.gtime := by
  induction h with
  | here h => exact ⟨h, by simp⟩
  | up hn _ _ _ ih =>
    refine ⟨ih.1, fun x hx => ?_⟩
    rcases List.mem_cons.1 hx with rfl | hx
    · exact hn
    · exact ih.2 x hx

omit [CommRing R] [LinearOrder R] in
theorem Climb.lt {n : Nat} {st : St R} {v w : Nat} {vs : List Nat} (h : Climb n st v vs w) : v < n → w < n ∧ ∀ x ∈ vs, x < n := by
  induction h with
  | here h => exact fun hv => ⟨hv, by simp⟩
  | up hn _ hu _ ih =>
    refine fun hv => ⟨(ih hu).1, fun x hx => ?_⟩
    rcases List.mem_cons.1 hx with rfl | hx
    · exact hv
    · exact (ih hu).2 x hx

theorem Climb.nodup {g0 : Rows R} {st : St R} (h : Ok g0 st) {v w : Nat} {vs : List Nat} (hc : Climb g0.length st v vs w) : vs.Nodup ∧ ∀ x ∈ vs, x = v ∨ Above st.tsf st.ds x v := by
  induction hc with
  | here h => simp
  | @up v u w vs hn hp hu hc' ih =>
    have hr := h.inv.rank v u hp hu
    have key : ∀ x ∈ vs, Above st.tsf st.ds x v := fun x hx => by
      rcases ih.2 x hx with rfl | h3
      · exact hr
      · exact h3.trans hr
    refine ⟨List.nodup_cons.2 ⟨fun hx => (key v hx).irrefl, ih.1⟩, ?_⟩
    intro x hx
    rcases List.mem_cons.1 hx with rfl | hx
    · exact Or.inl rfl
    · exact Or.inr (key x hx)

theorem origin_ok {g0 : Rows R} {st : St R} (h : Ok g0 st) (ha : Anch g0 st) {t : Bool} (v : Nat) : v < g0.length → st.ti v = t → ∀ d,
    Run.Gives (Run.loop (originRound t) (v, d, st)) fun o => Marks g0 st o.2 ∧ (∀ x, st.pr x ≠ some (tgt g0.length t) → o.2.tsf x = st.tsf x) ∧
      (o.1 = infiniteD ∨ ∃ vs w, Climb g0.length o.2 v vs w ∧ o.1 = d + (vs.length + o.2.ds w)) := by
  induction v using h.inv.induct with
  | step v ih =>
    intro hv ht d
    have hne : v ≠ tgt g0.length t := not_tgt hv
    by_cases c1 : st.tsf v = st.gtime
    · refine gives_loop_done (r := (d + st.ds v, st)) ?_ ⟨Marks.refl h ha, fun _ _ => rfl, Or.inr ⟨[], v, .here c1, by simp⟩⟩
      unfold originRound
      simp only [h.target, if_neg hne, h.getTs hv, res_bind_ok, if_pos c1, h.getDist hv, res_pure]
    · cases hp : st.pr v with
      | none =>
        refine gives_loop_done (r := (infiniteD, st)) ?_ ⟨Marks.refl h ha, fun _ _ => rfl, Or.inl rfl⟩
        unfold originRound
        simp only [h.target, if_neg hne, h.getTs hv, res_bind_ok, if_neg c1, h.getPred hv, hp, reduceCtorEq, if_false, res_pure]
      | some u =>
        by_cases c2 : u = tgt g0.length t
        · subst c2
          have e1 : ∀ w, (st.ts.set v st.gtime).getD w 0 = if w = v then st.gtime else st.tsf w := fun w => getD_set _ _ _ _ _ (by rw [h.lts]; exact hv)
          have e2 : ∀ w, (st.dist.set v 1).getD w 0 = if w = v then 1 else st.ds w := fun w => getD_set _ _ _ _ _ (by rw [h.ldist]; exact hv)
          refine gives_loop_done (r := (d + 1, { st with ts := st.ts.set v st.gtime, dist := st.dist.set v 1 })) ?_ ⟨?_, ?_, Or.inr ⟨[], v, .here ?_, ?_⟩⟩
          · unfold originRound
            simp only [h.target, if_neg hne, h.getTs hv, res_bind_ok, if_neg c1, h.getPred hv, hp, if_true, h.setTs hv, h.setDist hv, res_pure]
          · refine Marks.mk' h (by simpa using h.lts) (by simpa using h.ldist) ?_ ?_ ?_ ?_
            · intro x y hx hy
              unfold Above
              dsimp only
              have hxv : x ≠ v := by
                rintro rfl
                rw [hp] at hx; cases hx
                exact not_tgt hy rfl
              rw [e1, e1, e2, e2, if_neg hxv, if_neg hxv]
              by_cases c : y = v
              · subst c
                rw [if_pos rfl, if_pos rfl]
                left
                refine lt_of_le_of_ne (h.inv.time x) fun hx' => ?_
                rcases ha x (h.inv.dom x y hx) hx' with e | ⟨u, hu, e, e'⟩
                · rw [hx] at e; cases e; exact not_tgt hy rfl
                · rw [hx] at e; cases e; exact c1 e'
              · rw [if_neg c, if_neg c]
                exact h.inv.rank x y hx hy
            · intro x
              rw [e1]
              split
              · exact le_refl _
              · exact h.inv.time x
            · intro x hx hx'
              by_cases c : x = v
              · subst c
                left; rw [hp, ht]
              · rw [e1, if_neg c] at hx'
                rcases ha x hx hx' with e | ⟨u, hu, e, e'⟩
                · exact Or.inl e
                · refine Or.inr ⟨u, hu, e, ?_⟩
                  rw [e1]
                  split
                  · rfl
                  · exact e'
            · intro x hx hx'
              have c : x ≠ v := by rintro rfl; exact c1 hx'
              rw [e1, e2, if_neg c, if_neg c]
              exact ⟨hx', rfl⟩
          · intro x hx
            show (st.ts.set v st.gtime).getD x 0 = _
            rw [e1, if_neg (by rintro rfl; exact hx hp)]
          · show (st.ts.set v st.gtime).getD v 0 = _
            rw [e1, if_pos rfl]
          · show d + 1 = d + (0 + (st.dist.set v 1).getD v 0)
            rw [e2, if_pos rfl]
        · have hu : u < g0.length := (h.inv.lt v u hp).resolve_right (by rw [ht]; exact c2)
          refine gives_loop_step (s' := (u, d + 1, st)) ?_ ((ih u (h.inv.rank v u hp hu) hu ((h.inv.tree v u hp hu).trans ht) (d + 1)).mono ?_)
          · unfold originRound
            have c2' : ¬ (some u = some (tgt g0.length t)) := fun h => c2 (Option.some.inj h)
            simp only [h.target, if_neg hne, h.getTs hv, res_bind_ok, if_neg c1, h.getPred hv, hp, if_neg c2', res_pure]
          · rintro o ⟨o1, o2, o3⟩
            refine ⟨o1, o2, o3.imp id ?_⟩
            rintro ⟨vs, w, k1, k2⟩
            refine ⟨v :: vs, w, .up ?_ (by rw [o1.pr]; exact hp) hu k1, by rw [k2, List.length_cons]; omega⟩
            rw [o2 v (by rw [hp]; exact fun h => c2 (Option.some.inj h)), o1.gtime]
            exact c1

omit [CommRing R] [LinearOrder R] in
/-- The walk that stores the distances. -/
theorem mark_walk {n : Nat} {t : Bool} (vs : List Nat) : ∀ (v w : Nat) (st : St R), Climb n st v vs w → v < n → st.net.g.length = n → st.preds.length = n → st.ts.length = n → st.dist.length = n → vs.Nodup →
    Run.Gives (Run.loop (markRound t) (v, vs.length + st.ds w, st)) fun st' => ∃ ts dist, st' = { st with ts := ts, dist := dist } ∧ ts.length = n ∧ dist.length = n ∧
      (∀ x ∈ vs, ts.getD x 0 = st.gtime) ∧ (∀ x, x ∉ vs → ts.getD x 0 = st.tsf x ∧ dist.getD x 0 = st.ds x) ∧ dist.getD v 0 = vs.length + st.ds w ∧
      ∀ x ∈ vs, ∃ y, st.pr x = some y ∧ y < n ∧ (y ∈ vs ∨ y = w) ∧ dist.getD x 0 = dist.getD y 0 + 1 := by
  induction vs with
  | nil =>
    intro v w st hc hv hn l1 l2 l3 _
    cases hc with
    | here e =>
      have hne : v ≠ st.target t := by unfold St.target; rw [hn]; exact not_tgt hv
      refine gives_loop_done (r := st) ?_ ⟨st.ts, st.dist, rfl, l2, l3, by simp, fun x _ => ⟨rfl, rfl⟩, by rw [List.length_nil, Nat.zero_add]; rfl, by simp⟩
      unfold markRound
      simp only [if_neg hne]
      rw [vget_getD 0 (by rw [l2]; exact hv), res_bind_ok, if_pos (show st.ts.getD v 0 = st.gtime from e)]; rfl
  | cons a vs ih =>
    intro v w st hc hv hn l1 l2 l3 hnd
    have hcl := hc.lt hv
    have hend := hc.end
    cases hc with
    | @up _ u _ _ hts hp hu hc' =>
      have hav : a ∉ vs := (List.nodup_cons.1 hnd).1
      have hwa : w ≠ a := by rintro rfl; exact hend.2 w (by simp) hend.1
      have hne : a ≠ st.target t := by unfold St.target; rw [hn]; exact not_tgt hv
      have e1 : ∀ x y, (st.ts.set a y).getD x 0 = if x = a then y else st.tsf x := fun x y => getD_set _ _ _ _ _ (by rw [l2]; exact hv)
      have e2 : ∀ x y, (st.dist.set a y).getD x 0 = if x = a then y else st.ds x := fun x y => getD_set _ _ _ _ _ (by rw [l3]; exact hv)
      set st1 : St R := { st with ts := st.ts.set a st.gtime, dist := st.dist.set a ((a :: vs).length + st.ds w) } with hst1
      have hc1 : Climb n st1 u vs w := by
        have : ∀ {x ys z}, Climb n st x ys z → a ∉ ys → z ≠ a → Climb n st1 x ys z := by
          intro x ys z hc
          induction hc with
          | @here x h =>
            intro _ hz
            refine .here ?_
            show (st.ts.set a st.gtime).getD x 0 = _
            rw [e1, if_neg hz]; exact h
          | @up x y z ys hn' hp' hu' _ ih' =>
            intro hm hz
            have hxa : x ≠ a := by rintro rfl; exact hm (by simp)
            refine .up ?_ hp' hu' (ih' (fun h => hm (List.mem_cons_of_mem _ h)) hz)
            show (st.ts.set a st.gtime).getD x 0 ≠ _
            rw [e1, if_neg hxa]; exact hn'
        exact this hc' hav hwa
      have hdw : st1.ds w = st.ds w := by
        show (st.dist.set a _).getD w 0 = _
        rw [e2, if_neg hwa]
      have := ih u w st1 hc1 hu hn l1 (by simp [hst1, l2]) (by simp [hst1, l3]) (List.nodup_cons.1 hnd).2
      rw [hdw] at this
      refine gives_loop_step (s' := (u, vs.length + st.ds w, st1)) ?_ (this.mono ?_)
      · unfold markRound
        have hd : ¬ ((a :: vs).length + st.ds w = 0) := by rw [List.length_cons]; omega
        have hd' : (a :: vs).length + st.ds w - 1 = vs.length + st.ds w := by rw [List.length_cons]; omega
        have hp' : st.preds.getD a none = some u := hp
        simp only [if_neg hne]
        rw [vget_getD 0 (by rw [l2]; exact hv), res_bind_ok, if_neg (show ¬ st.ts.getD a 0 = st.gtime from hts), vset_of_lt (by rw [l2]; exact hv), res_bind_ok, vset_of_lt (by rw [l3]; exact hv), res_bind_ok,
          vget_getD none (by rw [l1]; exact hv), res_bind_ok, hp']
        simp only [if_neg hd, hd']
        rfl
      · rintro st' ⟨ts, dist, k1, k2, k3, k4, k5, k6, k7⟩
        have ea := k5 a hav
        have ea1 : ts.getD a 0 = st.gtime := by rw [ea.1]; show (st.ts.set a _).getD a 0 = _; rw [e1, if_pos rfl]
        have ea2 : dist.getD a 0 = (a :: vs).length + st.ds w := by rw [ea.2]; show (st.dist.set a _).getD a 0 = _; rw [e2, if_pos rfl]
        refine ⟨ts, dist, by rw [k1], k2, k3, ?_, ?_, ea2, ?_⟩
        · intro x hx
          rcases List.mem_cons.1 hx with rfl | hx
          · exact ea1
          · exact k4 x hx
        · intro x hx
          have hxa : x ≠ a := by rintro rfl; exact hx (by simp)
          obtain ⟨f1, f2⟩ := k5 x (fun h => hx (List.mem_cons_of_mem _ h))
          refine ⟨f1.trans ?_, f2.trans ?_⟩
          · show (st.ts.set a _).getD x 0 = _
            rw [e1, if_neg hxa]
          · show (st.dist.set a _).getD x 0 = _
            rw [e2, if_neg hxa]
        · intro x hx
          rcases List.mem_cons.1 hx with rfl | hx
          · refine ⟨u, hp, hu, ?_, by rw [ea2, k6, List.length_cons]; omega⟩
            cases hc' with
            | here _ => exact Or.inr rfl
            | up _ _ _ _ => exact Or.inl (by simp)
          · obtain ⟨y, y1, y2, y3, y4⟩ := k7 x hx
            exact ⟨y, y1, y2, y3.imp (List.mem_cons_of_mem _) id, y4⟩

theorem mark_ok {g0 : Rows R} {st : St R} (h : Ok g0 st) (ha : Anch g0 st) {t : Bool} {v w : Nat} {vs : List Nat} (hc : Climb g0.length st v vs w) (hv : v < g0.length) :
    Run.Gives (Run.loop (markRound t) (v, vs.length + st.ds w, st)) fun st' => Marks g0 st st' ∧ st'.tsf v = st.gtime ∧ st'.ds v = vs.length + st.ds w := by
  refine (mark_walk vs v w st hc hv h.good.len h.lpreds h.lts h.ldist (hc.nodup h).1).mono ?_
  rintro st' ⟨ts, dist, rfl, k2, k3, k4, k5, k6, k7⟩
  have hend := hc.end
  have hwn : w ∉ vs := fun hw => hend.2 w hw hend.1
  have hanc : ∀ x, st.tsf x = st.gtime → ts.getD x 0 = st.gtime ∧ dist.getD x 0 = st.ds x := by
    intro x hx
    have : x ∉ vs := fun hm => hend.2 x hm hx
    rw [(k5 x this).1, (k5 x this).2]
    exact ⟨hx, rfl⟩
  refine ⟨Marks.mk' h k2 k3 ?_ ?_ ?_ (fun x _ => hanc x), ?_, k6⟩
  · intro x y hx hy
    unfold Above
    dsimp only
    by_cases c : x ∈ vs
    · obtain ⟨y', y1, y2, y3, y4⟩ := k7 x c
      rw [hx] at y1; cases y1
      right
      refine ⟨?_, by omega⟩
      rw [k4 x c]
      rcases y3 with y3 | rfl
      · rw [k4 y y3]
      · exact (hanc y hend.1).1.symm
    · rw [(k5 x c).1, (k5 x c).2]
      by_cases c2 : st.tsf x = st.gtime
      · rcases ha x (h.inv.dom x y hx) c2 with e | ⟨u, hu, e, e'⟩
        · rw [hx] at e; cases e; exact absurd rfl (not_tgt hy)
        · rw [hx] at e; cases e
          obtain ⟨f1, f2⟩ := hanc y e'
          rw [f1, f2]
          have := h.inv.rank x y hx hy
          unfold Above at this
          rw [e'] at this
          exact this
      · have hlt := lt_of_le_of_ne (h.inv.time x) c2
        by_cases c3 : y ∈ vs
        · left; rw [k4 y c3]; exact hlt
        · rw [(k5 y c3).1, (k5 y c3).2]
          exact h.inv.rank x y hx hy
  · intro x
    by_cases c : x ∈ vs
    · rw [k4 x c]
    · rw [(k5 x c).1]; exact h.inv.time x
  · intro x hx hx'
    by_cases c : x ∈ vs
    · obtain ⟨y, y1, y2, y3, y4⟩ := k7 x c
      refine Or.inr ⟨y, y2, y1, ?_⟩
      rcases y3 with y3 | rfl
      · exact k4 y y3
      · exact (hanc y hend.1).1
    · rw [(k5 x c).1] at hx'
      rcases ha x hx hx' with e | ⟨u, hu, e, e'⟩
      · exact Or.inl e
      · exact Or.inr ⟨u, hu, e, (hanc u e').1⟩
  · show ts.getD v 0 = st.gtime
    cases hc with
    | here e => exact (hanc v e).1
    | up _ _ _ _ => exact k4 v (by simp)

theorem candidate_ok {g0 : Rows R} {st : St R} (h : Ok g0 st) (ha : Anch g0 st) {t : Bool} {q : Nat} (hq : q < g0.length) (ht : st.ti q = t) (rc brc : Loc) (b : Best) :
    Run.Gives (candidate t q rc brc st b) fun o => Marks g0 st o.1 ∧ (o.2 = b ∨ ∃ d, o.2 = (some (q, rc, brc), d) ∧ o.1.tsf q = st.gtime ∧ o.1.ds q = d) := by
  unfold candidate
  refine (origin_ok h ha q hq ht 0).bind ?_
  rintro ⟨d, st1⟩ ⟨o1, -, o3⟩
  dsimp only at o1 o3 ⊢
  by_cases c : d < infiniteD
  · rw [if_pos c]
    obtain ⟨vs, w, k1, k2⟩ := o3.resolve_left (by omega)
    rw [Nat.zero_add] at k2
    rw [k2]
    refine (mark_ok o1.ok o1.anch k1 hq).bind ?_
    rintro st2 ⟨m1, m2, m3⟩
    refine Run.gives_pure ⟨o1.trans m1, ?_⟩
    dsimp only
    split
    · exact Or.inr ⟨_, rfl, m2.trans o1.gtime, m3⟩
    · exact Or.inl rfl
  · rw [if_neg c]
    exact Run.gives_pure ⟨o1, Or.inl rfl⟩

/-- The parent that has been found for `p`, if there is one. -/
def BestOk (g0 : Rows R) (p : Nat) (t : Bool) (st : St R) (b : Best) : Prop :=
  ∀ q rc brc, b.1 = some (q, rc, brc) → Edge g0 q p ∧ st.ti q = t ∧ (rc, brc) = tpair g0 t q p ∧ 0 < tres st.r t q p ∧ st.tsf q = st.gtime ∧ st.ds q = b.2

theorem BestOk.mono {g0 : Rows R} {p : Nat} {t : Bool} {st st' : St R} {b : Best} (h : BestOk g0 p t st b) (hm : Marks g0 st st') : BestOk g0 p t st' b := by
  intro q rc brc e
  obtain ⟨h1, h2, h3, h4, h5, h6⟩ := h q rc brc e
  obtain ⟨m1, m2⟩ := hm.mono q h1.src_lt h5
  exact ⟨h1, by rw [hm.ti]; exact h2, h3, by rw [hm.r]; exact h4, m1.trans hm.gtime.symm, m2.trans h6⟩

theorem eligible_ok {g0 : Rows R} {tol : R} (htol : 0 ≤ tol) (hs : Simple g0) (hg : InRange g0) (hy : Symm g0) {st : St R} (h : Ok g0 st) {p q : Nat} {t : Bool} (he : Edge g0 p q) :
    ∃ c, eligible tol p t st (place g0 p q) = .ok (st, c) ∧ ∀ q' rc brc, c = some (q', rc, brc) → q' = q ∧ st.ti q = t ∧ (rc, brc) = tpair g0 t q p ∧ 0 < tres st.r t q p := by
  have hq := hg _ _ he
  unfold eligible
  rw [read_place h.good he, res_bind_ok]
  dsimp only
  rw [h.getTid hq, res_bind_ok, h.getPred hq, res_bind_ok]
  by_cases c : st.ti q ≠ t ∨ st.pr q = some p
  · rw [if_pos c]; exact ⟨none, rfl, by simp⟩
  · rw [if_neg c]
    have ht : st.ti q = t := by by_contra hc; exact c (Or.inl hc)
    cases t with
    | true =>
      rw [if_pos rfl]
      by_cases c2 : res st.net p q ≤ tol
      · rw [if_pos c2]; exact ⟨none, rfl, by simp⟩
      · rw [if_neg c2, getBack_place h.good hs hy he, res_bind_ok]
        refine ⟨some (q, place g0 p q, place g0 q p), rfl, ?_⟩
        intro q' rc brc e
        cases e
        exact ⟨rfl, ht, rfl, lt_of_le_of_lt htol (not_le.1 c2)⟩
    | false =>
      rw [if_neg (by simp), getBack_place h.good hs hy he, res_bind_ok]
      dsimp only
      rw [read_place h.good (hy _ _ he), res_bind_ok]
      dsimp only
      by_cases c2 : res st.net q p ≤ tol
      · rw [if_pos c2]; exact ⟨none, rfl, by simp⟩
      · rw [if_neg c2]
        refine ⟨some (q, place g0 q p, place g0 p q), rfl, ?_⟩
        intro q' rc brc e
        cases e
        exact ⟨rfl, ht, rfl, lt_of_le_of_lt htol (not_le.1 c2)⟩

theorem adoptEdges_ok {g0 : Rows R} {tol : R} (htol : 0 ≤ tol) (hs : Simple g0) (hg : InRange g0) (hy : Symm g0) {st : St R} (h : Ok g0 st) (ha : Anch g0 st) {p : Nat} {t : Bool} {ls : List Loc}
    (hls : ∀ l ∈ ls, ∃ u, Edge g0 p u ∧ l = place g0 p u) :
    Run.Gives (ls.foldlM (adoptEdge tol p t) (st, (none, infiniteD))) fun o => Marks g0 st o.1 ∧ BestOk g0 p t o.1 o.2 := by
  refine Run.gives_foldlM (fun _ (o : St R × Best) => Marks g0 st o.1 ∧ BestOk g0 p t o.1 o.2) ⟨Marks.refl h ha, ?_⟩ ?_
  · intro q rc brc e; cases e
  · rintro pre l post e ⟨st1, b⟩ ⟨h1, h2⟩
    dsimp only at h1 h2
    obtain ⟨q, hq, rfl⟩ := hls l (by rw [e]; simp)
    obtain ⟨c, c1, c2⟩ := eligible_ok (t := t) htol hs hg hy h1.ok hq
    unfold adoptEdge
    refine (Run.gives_lift (Q := fun o => o = (st1, c)) c1 rfl).bind ?_
    rintro _ rfl
    dsimp only
    cases c with
    | none => exact Run.gives_pure ⟨h1, h2⟩
    | some c =>
      obtain ⟨q', rc, brc⟩ := c
      obtain ⟨rfl, d2, d3, d4⟩ := c2 q' rc brc rfl
      dsimp only
      refine (candidate_ok h1.ok h1.anch (hg _ _ hq) d2 rc brc b).mono ?_
      rintro ⟨st2, b2⟩ ⟨m1, m2⟩
      dsimp only at m1 m2
      refine ⟨h1.trans m1, ?_⟩
      rcases m2 with rfl | ⟨d, rfl, m3, m4⟩
      · exact h2.mono m1
      · intro q0 rc0 brc0 e0
        cases e0
        exact ⟨hy _ _ hq, by rw [m1.ti]; exact d2, d3, by rw [m1.r]; exact d4, m3.trans m1.gtime.symm, m4⟩

/-- The children of `p` are made orphans. -/
structure Free (g0 : Rows R) (p : Nat) (st0 st : St R) (pre : List Loc) : Prop where
  net : st.net = st0.net
  cap : st.cap = st0.cap
  mf : st.mf = st0.mf
  gtime : st.gtime = st0.gtime
  tid : st.tid = st0.tid
  trees : st.trees = st0.trees
  ts : st.ts = st0.ts
  dist : st.dist = st0.dist
  lpreds : st.preds.length = g0.length
  sub : ∀ w u, st.pr w = some u → st0.pr w = some u
  keep : ∀ w, st0.pr w ≠ some p → st.pr w = st0.pr w
  gone : ∀ q, Edge g0 p q → place g0 p q ∈ pre → st.pr q ≠ some p
  nodup : st.orphans.Nodup
  lt : ∀ w ∈ st.orphans, w < g0.length
  null : ∀ w ∈ st.orphans, st.pr w = none
  old : ∀ w ∈ st0.orphans, w ∈ st.orphans
  new : ∀ w, st0.pr w = some p → st.pr w = none → w ∈ st.orphans
  cnt : st.orphans.length + st0.nulls = st0.orphans.length + st.nulls
  act : ∀ w ∈ st.active, w < g0.length

theorem freeEdge_ok {g0 : Rows R} {tol : R} (hs : Simple g0) (hg : InRange g0) (hy : Symm g0) {st0 st : St R} {p q : Nat} {t : Bool} {pre : List Loc} (hgood : Good g0 st0.net)
    (ltid : st0.tid.length = g0.length) (hch : ∀ v, st0.pr v = some p → st0.ti v = t) (h : Free g0 p st0 st pre) (he : Edge g0 p q) :
    ∃ st', freeEdge tol p t st (place g0 p q) = .ok st' ∧ Free g0 p st0 st' (pre ++ [place g0 p q]) := by
  have hq := hg _ _ he
  have hgood' : Good g0 st.net := by rw [h.net]; exact hgood
  have inj : ∀ q', Edge g0 p q' → place g0 p q' ∈ pre ++ [place g0 p q] → place g0 p q' ∈ pre ∨ q' = q := by
    intro q' he' hm
    rcases List.mem_append.1 hm with hm | hm
    · exact Or.inl hm
    · right
      have e1 := read_place hgood he'
      rw [List.mem_singleton.1 hm, read_place hgood he] at e1
      cases e1; rfl
  have htid : vget st.tid q = .ok (st0.ti q) := by rw [h.tid]; exact vget_getD false (by rw [ltid]; exact hq)
  unfold freeEdge
  rw [read_place hgood' he, res_bind_ok]
  dsimp only
  rw [htid, res_bind_ok]
  by_cases c : st0.ti q ≠ t
  · rw [if_pos c]
    refine ⟨st, rfl, { h with gone := ?_ }⟩
    intro q' he' hm
    rcases inj q' he' hm with hm | rfl
    · exact h.gone q' he' hm
    · exact fun hp => c (hch _ (h.sub _ _ hp))
  · rw [if_neg c]
    have hnet : ∃ act, reactivate tol p q (res st.net p q) (st0.ti q) st = .ok { st with active := act } ∧ ∀ w ∈ act, w < g0.length := by
      unfold reactivate
      have hact : ∀ w ∈ st.active ++ [q], w < g0.length := by
        intro w hw
        rcases List.mem_append.1 hw with hw | hw
        · exact h.act w hw
        · rw [List.mem_singleton.1 hw]; exact hq
      split
      · exact ⟨_, rfl, hact⟩
      · split
        · rw [getBack_place hgood' hs hy he, res_bind_ok]
          dsimp only
          rw [read_place hgood' (hy _ _ he), res_bind_ok]
          split
          · exact ⟨_, rfl, hact⟩
          · exact ⟨st.active, rfl, h.act⟩
        · exact ⟨st.active, rfl, h.act⟩
    obtain ⟨act, a1, a2⟩ := hnet
    rw [a1, res_bind_ok]
    dsimp only
    rw [vget_getD none (by rw [h.lpreds]; exact hq), res_bind_ok]
    by_cases c2 : st.preds.getD q none = some p
    · rw [if_pos c2, vset_of_lt (by rw [h.lpreds]; exact hq), res_bind_ok]
      have e1 : ∀ w, (st.preds.set q none).getD w none = if w = q then none else st.pr w := fun w => getD_set _ _ _ _ _ (by rw [h.lpreds]; exact hq)
      have hqo : q ∉ st.orphans := fun hm => by
        have := h.null q hm
        unfold St.pr at this
        rw [c2] at this; cases this
      refine ⟨_, rfl, ⟨h.net, h.cap, h.mf, h.gtime, h.tid, h.trees, h.ts, h.dist, by simpa using h.lpreds, ?_, ?_, ?_, ?_, ?_, ?_, ?_, ?_, ?_, a2⟩⟩
      · intro w u hw
        change (st.preds.set q none).getD w none = some u at hw
        rw [e1] at hw
        split at hw
        · cases hw
        · exact h.sub w u hw
      · intro w hw
        show (st.preds.set q none).getD w none = _
        rw [e1, if_neg]
        · exact h.keep w hw
        · rintro rfl
          exact hw (h.sub _ _ c2)
      · intro q' he' hm
        show (st.preds.set q none).getD q' none ≠ some p
        rw [e1]
        split
        · simp
        · rename_i hn
          exact h.gone q' he' ((inj q' he' hm).resolve_right hn)
      · show (st.orphans ++ [q]).Nodup
        rw [List.nodup_append]
        exact ⟨h.nodup, by simp, fun a ha b hb => by rw [List.mem_singleton.1 hb]; rintro rfl; exact hqo ha⟩
      · intro w hw
        rcases List.mem_append.1 hw with hw | hw
        · exact h.lt w hw
        · rw [List.mem_singleton.1 hw]; exact hq
      · intro w hw
        show (st.preds.set q none).getD w none = none
        rw [e1]
        split
        · rfl
        · rename_i hn
          rcases List.mem_append.1 hw with hw | hw
          · exact h.null w hw
          · exact absurd (List.mem_singleton.1 hw) hn
      · intro w hw
        exact List.mem_append_left _ (h.old w hw)
      · intro w hw hw'
        by_cases cw : w = q
        · subst cw
          exact List.mem_append_right _ (by simp)
        · change (st.preds.set q none).getD w none = none at hw'
          rw [e1, if_neg cw] at hw'
          exact List.mem_append_left _ (h.new w hw hw')
      · have := count_none_set (l := st.preds) (v := q) (by rw [h.lpreds]; exact hq) none
        rw [c2] at this
        simp only [reduceCtorEq, if_false, if_true] at this
        have hc := h.cnt
        show (st.orphans ++ [q]).length + st0.nulls = st0.orphans.length + (st.preds.set q none).count none
        unfold St.nulls at hc ⊢
        rw [List.length_append, List.length_singleton]
        omega
    · rw [if_neg c2]
      refine ⟨_, rfl, ⟨h.net, h.cap, h.mf, h.gtime, h.tid, h.trees, h.ts, h.dist, h.lpreds, h.sub, h.keep, ?_, h.nodup, h.lt, h.null, h.old, h.new, h.cnt, a2⟩⟩
      intro q' he' hm
      rcases inj q' he' hm with hm | rfl
      · exact h.gone q' he' hm
      · exact c2

theorem freeEdges_ok {g0 : Rows R} {tol : R} (hs : Simple g0) (hg : InRange g0) (hy : Symm g0) {st0 : St R} {p : Nat} {t : Bool} (hgood : Good g0 st0.net)
    (ltid : st0.tid.length = g0.length) (hch : ∀ v, st0.pr v = some p → st0.ti v = t) (ls : List Loc) (hls : ∀ l ∈ ls, ∃ u, Edge g0 p u ∧ l = place g0 p u) :
    ∀ (pre : List Loc) (st : St R), Free g0 p st0 st pre → ∃ st', ls.foldlM (freeEdge tol p t) st = .ok st' ∧ Free g0 p st0 st' (pre ++ ls) := by
  induction ls with
  | nil => intro pre st h; exact ⟨st, rfl, by simpa using h⟩
  | cons l ls ih =>
    intro pre st h
    obtain ⟨q, hq, rfl⟩ := hls l (by simp)
    obtain ⟨st1, s1, s2⟩ := freeEdge_ok (tol := tol) hs hg hy hgood ltid hch h hq
    obtain ⟨st2, s3, s4⟩ := ih (fun l hl => hls l (List.mem_cons_of_mem _ hl)) _ st1 s2
    refine ⟨st2, ?_, by simpa using s4⟩
    rw [List.foldlM_cons, s1, res_bind_ok, s3]

/-- The vertices without the current timestamp. -/
def unmarked (n : Nat) (st : St R) : Finset Nat := (Finset.range n).filter fun v => st.tsf v ≠ st.gtime

theorem Marks.unmarked {g0 : Rows R} {st st' : St R} (h : Marks g0 st st') : unmarked g0.length st' ⊆ unmarked g0.length st := by
  intro v hv
  unfold Bk.unmarked at *
  rw [Finset.mem_filter, Finset.mem_range] at *
  refine ⟨hv.1, fun e => hv.2 ?_⟩
  rw [h.gtime]
  exact (h.mono v hv.1 e).1

/-- The invariant of the adoption. -/
structure Ado (g0 : Rows R) (st0 st : St R) : Prop where
  ok : Ok g0 st
  orph : Orph g0 st
  anch : Anch g0 st
  net : st.net = st0.net
  cap : st.cap = st0.cap
  mf : st.mf = st0.mf
  pos : 0 < st.gtime
  act : ∀ w ∈ st.active, w < g0.length

/-- The measure of the adoption. -/
def adoM (n : Nat) (st : St R) : Nat × Nat := ((unmarked n st).card, st.orphans.length + (n - st.nulls))

theorem nulls_le {g0 : Rows R} {st : St R} (h : Ok g0 st) : st.nulls ≤ g0.length := by
  unfold St.nulls
  rw [← h.lpreds]
  exact List.count_le_length

/-- The vertex that is adopted has neither the current timestamp nor a child with it. -/
theorem anch_orphan {g0 : Rows R} {st : St R} (h : Ok g0 st) (ha : Anch g0 st) {p : Nat} (hp : p < g0.length) (hn : st.pr p = none) :
    st.tsf p ≠ st.gtime ∧ ∀ x, st.pr x = some p → st.tsf x < st.gtime := by
  have h1 : st.tsf p ≠ st.gtime := by
    intro e
    rcases ha p hp e with e | ⟨u, -, e, -⟩ <;> rw [hn] at e <;> cases e
  refine ⟨h1, fun x hx => lt_of_le_of_ne (h.inv.time x) fun e => ?_⟩
  rcases ha x (h.inv.dom x p hx) e with e | ⟨u, hu, e, e'⟩
  · rw [hx] at e; cases e; exact not_tgt hp rfl
  · rw [hx] at e; cases e; exact h1 e'

theorem settle_some {g0 : Rows R} {tol : R} {st0 st : St R} {p : Nat} {rest : List Nat} (hp : p < g0.length) (hpr : st.pr p = none) (h : Ok g0 st) (ha : Anch g0 st)
    (ho : Orph g0 { st with orphans := p :: rest }) (hr : st.orphans = rest) (h0 : st.net = st0.net ∧ st.cap = st0.cap ∧ st.mf = st0.mf ∧ 0 < st.gtime) (hact : ∀ w ∈ st.active, w < g0.length)
    {ls : List Loc} {q : Nat} {rc brc : Loc} {d : Nat} (hb : BestOk g0 p (st.ti p) st (some (q, rc, brc), d)) :
    ∃ st', settle tol p (st.ti p) st ls (some (q, rc, brc), d) = .ok st' ∧ Ado g0 st0 st' ∧ (unmarked g0.length st').card < (unmarked g0.length st).card := by
  obtain ⟨b1, b2, b3, b4, b5, b6⟩ := hb q rc brc rfl
  have hq := b1.src_lt
  obtain ⟨n1, n2⟩ := anch_orphan h ha hp hpr
  have hqp : q ≠ p := by rintro rfl; exact n1 b5
  have e1 : ∀ w, (st.preds.set p (some q)).getD w none = if w = p then some q else st.pr w := fun w => getD_set _ _ _ _ _ (by rw [h.lpreds]; exact hp)
  have e2 : ∀ w, (st.trees.set p (some (rc, brc))).getD w none = if w = p then some (rc, brc) else st.tr w := fun w => getD_set _ _ _ _ _ (by rw [h.ltrees]; exact hp)
  have e3 : ∀ w, (st.ts.set p st.gtime).getD w 0 = if w = p then st.gtime else st.tsf w := fun w => getD_set _ _ _ _ _ (by rw [h.lts]; exact hp)
  have e4 : ∀ w, (st.dist.set p (d + 1)).getD w 0 = if w = p then d + 1 else st.ds w := fun w => getD_set _ _ _ _ _ (by rw [h.ldist]; exact hp)
  have hmon : ∀ w, st.tsf w = st.gtime → (st.ts.set p st.gtime).getD w 0 = st.gtime := by
    intro w hw
    rw [e3]; split
    · rfl
    · exact hw
  refine ⟨{ st with preds := st.preds.set p (some q), trees := st.trees.set p (some (rc, brc)), ts := st.ts.set p st.gtime, dist := st.dist.set p (d + 1) }, ?_, ⟨⟨h.good, h.lcap, h.ltid, by simpa using h.lpreds, by simpa using h.ltrees, by simpa using h.lts, by simpa using h.ldist, ?_⟩, ⟨?_, ?_, ?_, ?_⟩, ?_, h0.1, h0.2.1, h0.2.2.1, h0.2.2.2, hact⟩, ?_⟩
  · unfold settle
    simp only [h.setPred hp, h.setTree hp, h.setTs hp, h.setDist hp, res_bind_ok, res_pure]
  · refine h.inv.attach (p := q) (q := p) hq hp hqp b1 e1 ?_ ?_ ?_ ?_ ?_ ?_ ?_ ?_
    · intro w
      show st.ti w = _
      split
      · rename_i e; rw [e, b2]
      · rfl
    · intro w
      show (st.trees.set p _).getD w none = _
      rw [e2, b2, ← b3]
    · intro w hw
      show (st.ts.set p _).getD w 0 = _
      rw [e3, if_neg hw]
    · intro w hw
      show (st.dist.set p _).getD w 0 = _
      rw [e4, if_neg hw]
    · show (st.ts.set p _).getD p 0 ≤ _
      rw [e3, if_pos rfl]
    · rw [b2]; exact b4
    · right
      show (st.ts.set p _).getD p 0 = (st.ts.set p _).getD q 0 ∧ (st.dist.set p _).getD q 0 < (st.dist.set p _).getD p 0
      rw [e3, e3, e4, e4, if_pos rfl, if_pos rfl, if_neg hqp, if_neg hqp]
      dsimp only at b6
      exact ⟨b5.symm, by omega⟩
    · intro x hx hxp
      refine ⟨by rw [b2]; exact (h.inv.tree x p hxp hp).symm, Or.inl ?_⟩
      show (st.ts.set p _).getD x 0 < (st.ts.set p _).getD p 0
      rw [e3, e3, if_pos rfl, if_neg hx]
      exact n2 x hxp
  · show st.orphans.Nodup
    rw [hr]; exact (List.nodup_cons.1 ho.nodup).2
  · intro w hw
    change w ∈ st.orphans at hw
    rw [hr] at hw
    exact ho.lt w (List.mem_cons_of_mem _ hw)
  · intro w hw
    change w ∈ st.orphans at hw
    rw [hr] at hw
    show (st.preds.set p (some q)).getD w none = none
    rw [e1, if_neg]
    · exact ho.null w (List.mem_cons_of_mem _ hw)
    · rintro rfl; exact (List.nodup_cons.1 ho.nodup).1 hw
  · intro v u e hu e'
    change (st.preds.set p (some q)).getD v none = some u at e
    change (st.preds.set p (some q)).getD u none = none at e'
    show u ∈ st.orphans
    rw [hr]
    rw [e1] at e e'
    have hup : u ≠ p := by
      rintro rfl
      rw [if_pos rfl] at e'; cases e'
    rw [if_neg hup] at e'
    have hm : u ∈ p :: rest := by
      by_cases c : v = p
      · rw [if_pos c] at e; cases e
        exfalso
        exact (anch_orphan h ha hq e').1 b5
      · rw [if_neg c] at e
        exact ho.all v u e hu e'
    exact (List.mem_cons.1 hm).resolve_left hup
  · intro v hv hv'
    change (st.ts.set p st.gtime).getD v 0 = st.gtime at hv'
    show (st.preds.set p (some q)).getD v none = some (tgt g0.length (st.ti v)) ∨ ∃ u, u < g0.length ∧ (st.preds.set p (some q)).getD v none = some u ∧ (st.ts.set p st.gtime).getD u 0 = st.gtime
    rw [e1]
    by_cases c : v = p
    · rw [if_pos c]
      exact Or.inr ⟨q, hq, rfl, hmon q b5⟩
    · rw [if_neg c]
      rw [e3, if_neg c] at hv'
      rcases ha v hv hv' with e | ⟨u, hu, e, e'⟩
      · exact Or.inl e
      · exact Or.inr ⟨u, hu, e, hmon u e'⟩
  · refine Finset.card_lt_card ⟨?_, ?_⟩
    · intro v hv
      unfold Bk.unmarked at *
      rw [Finset.mem_filter, Finset.mem_range] at *
      exact ⟨hv.1, fun e => hv.2 (hmon v e)⟩
    · intro hsub
      have : p ∈ unmarked g0.length st := by
        unfold Bk.unmarked
        rw [Finset.mem_filter, Finset.mem_range]; exact ⟨hp, n1⟩
      have := hsub this
      unfold Bk.unmarked at this
      rw [Finset.mem_filter] at this
      refine this.2 ?_
      show (st.ts.set p st.gtime).getD p 0 = _
      rw [e3, if_pos rfl]

theorem settle_none {g0 : Rows R} {tol : R} (hs : Simple g0) (hg : InRange g0) (hy : Symm g0) {st0 st : St R} {p : Nat} {rest : List Nat} (hp : p < g0.length) (hpr : st.pr p = none) (h : Ok g0 st)
    (ha : Anch g0 st) (ho : Orph g0 { st with orphans := p :: rest }) (hr : st.orphans = rest) (h0 : st.net = st0.net ∧ st.cap = st0.cap ∧ st.mf = st0.mf ∧ 0 < st.gtime)
    (hact : ∀ w ∈ st.active, w < g0.length) {ls : List Loc} (hls : ∀ l ∈ ls, ∃ u, Edge g0 p u ∧ l = place g0 p u) (hall : ∀ u, Edge g0 p u → place g0 p u ∈ ls) {d : Nat} :
    ∃ st', settle tol p (st.ti p) st ls (none, d) = .ok st' ∧ Ado g0 st0 st' ∧ unmarked g0.length st' ⊆ unmarked g0.length st ∧
      st'.orphans.length + st.nulls = rest.length + st'.nulls := by
  obtain ⟨n1, n2⟩ := anch_orphan h ha hp hpr
  have e3 : ∀ w, (st.ts.set p 0).getD w 0 = if w = p then 0 else st.tsf w := fun w => getD_set _ _ _ _ _ (by rw [h.lts]; exact hp)
  have hfree : Free g0 p { st with ts := st.ts.set p 0 } { st with ts := st.ts.set p 0 } [] := by
    refine ⟨rfl, rfl, rfl, rfl, rfl, rfl, rfl, rfl, h.lpreds, fun _ _ h => h, fun _ _ => rfl, by simp, ?_, ?_, ?_, fun _ h => h, ?_, rfl, hact⟩
    · show st.orphans.Nodup
      rw [hr]; exact (List.nodup_cons.1 ho.nodup).2
    · intro w hw
      change w ∈ st.orphans at hw
      rw [hr] at hw
      exact ho.lt w (List.mem_cons_of_mem _ hw)
    · intro w hw
      change w ∈ st.orphans at hw
      rw [hr] at hw
      exact ho.null w (List.mem_cons_of_mem _ hw)
    · intro w hw hw'
      rw [hw] at hw'; cases hw'
  obtain ⟨st', s1, s2⟩ := freeEdges_ok (tol := tol) (t := st.ti p) hs hg hy (st0 := { st with ts := st.ts.set p 0 }) h.good h.ltid (fun v hv => (h.inv.tree v p hv hp).symm) ls hls [] _ hfree
  rw [List.nil_append] at s2
  have hsub : ∀ w u, st'.pr w = some u → st.pr w = some u := s2.sub
  have hnp : ∀ w, st'.pr w ≠ some p := by
    intro w hw
    have h1 := h.inv.edge w p (hsub w p hw) hp
    exact s2.gone w h1 (hall w h1) hw
  have hts : ∀ w, st'.tsf w = if w = p then 0 else st.tsf w := by
    intro w
    unfold St.tsf
    rw [s2.ts]
    exact e3 w
  have hds : st'.ds = st.ds := by unfold St.ds; rw [s2.dist]
  have hti : st'.ti = st.ti := by unfold St.ti; rw [s2.tid]
  have htr : st'.tr = st.tr := by unfold St.tr; rw [s2.trees]
  have hrr : st'.r = st.r := by unfold St.r; rw [s2.net]
  have hcp : st'.cp = st.cp := by unfold St.cp; rw [s2.cap]
  have hgt : st'.gtime = st.gtime := s2.gtime
  have hp' : st'.pr p = none := by
    cases c : st'.pr p with
    | none => rfl
    | some u => rw [hsub p u c] at hpr; cases hpr
  refine ⟨st', ?_, ⟨⟨?_, ?_, ?_, s2.lpreds, ?_, ?_, ?_, ?_⟩, ⟨s2.nodup, s2.lt, s2.null, ?_⟩, ?_, s2.net.trans h0.1, s2.cap.trans h0.2.1, s2.mf.trans h0.2.2.1, hgt ▸ h0.2.2.2, s2.act⟩, ?_, ?_⟩
  · unfold settle
    dsimp only
    rw [h.setTs hp, res_bind_ok]
    exact s1
  · rw [s2.net]; exact h.good
  · rw [s2.cap]; exact h.lcap
  · rw [s2.tid]; exact h.ltid
  · rw [s2.trees]; exact h.ltrees
  · rw [s2.ts]; simpa using h.lts
  · rw [s2.dist]; exact h.ldist
  · rw [hrr, hcp, hti, htr, hds, hgt]
    refine (h.inv.detach hsub).retime ?_ ?_
    · intro v u hv hu
      have hup : u ≠ p := by rintro rfl; exact hnp v hv
      have hvp : v ≠ p := by rintro rfl; rw [hp'] at hv; cases hv
      have := h.inv.rank v u (hsub v u hv) hu
      unfold Above at *
      rw [hts, hts, if_neg hup, if_neg hvp]
      exact this
    · intro v
      rw [hts]; split
      · exact Nat.zero_le _
      · exact h.inv.time v
  · intro v u e hu e'
    have hup : u ≠ p := by rintro rfl; exact hnp v e
    by_cases c : st.pr u = none
    · have := ho.all v u (hsub v u e) hu c
      refine s2.old u ?_
      show u ∈ st.orphans
      rw [hr]
      exact (List.mem_cons.1 this).resolve_left hup
    · refine s2.new u ?_ e'
      by_contra hne
      exact c ((s2.keep u hne).symm.trans e')
  · intro v hv hv'
    rw [hgt] at hv'
    have hvp : v ≠ p := by
      rintro rfl
      rw [hts, if_pos rfl] at hv'
      have := h0.2.2.2; omega
    rw [hts, if_neg hvp] at hv'
    rw [hti, hgt]
    have hk : st'.pr v = st.pr v := s2.keep v fun e => by
      have := n2 v e; omega
    rw [hk]
    rcases ha v hv hv' with e | ⟨u, hu, e, e'⟩
    · exact Or.inl e
    · refine Or.inr ⟨u, hu, e, ?_⟩
      rw [hts, if_neg]
      · exact e'
      · rintro rfl; exact n1 e'
  · intro v hv
    unfold Bk.unmarked at *
    rw [Finset.mem_filter, Finset.mem_range] at *
    refine ⟨hv.1, fun e => ?_⟩
    by_cases c : v = p
    · subst c; exact n1 e
    · exact hv.2 (by rw [hts, if_neg c, hgt]; exact e)
  · have := s2.cnt
    change _ + st.nulls = st.orphans.length + _ at this
    rw [hr] at this
    exact this

theorem adopt_ok {g0 : Rows R} {tol : R} (htol : 0 ≤ tol) (hs : Simple g0) (hg : InRange g0) (hy : Symm g0) {st0 st : St R} (h : Ado g0 st0 st) :
    Run.Gives (Run.loopR (adoptRound tol) st) fun st' => Rest g0 st' st' ∧ st'.net = st0.net ∧ st'.cap = st0.cap ∧ st'.mf = st0.mf := by
  refine Run.gives_loopR (fun st => Ado g0 st0 st) (Prod.Lex (· < ·) (· < ·)) (Prod.lex Nat.lt_wfRel Nat.lt_wfRel).wf (adoM g0.length) ?_ st h
  intro st h
  unfold adoptRound
  cases hor : st.orphans with
  | nil =>
    refine Run.gives_pure ⟨⟨h.ok, ?_, rfl, rfl, rfl, hor, h.act⟩, h.net, h.cap, h.mf⟩
    intro v u e hu e'
    have := h.orph.all v u e hu e'
    rw [hor] at this; cases this
  | cons p rest =>
    dsimp only
    have hp : p < g0.length := h.orph.lt p (by rw [hor]; simp)
    have hpr : st.pr p = none := h.orph.null p (by rw [hor]; simp)
    set st1 : St R := { st with orphans := rest } with hst1
    have hok1 : Ok g0 st1 := ⟨h.ok.good, h.ok.lcap, h.ok.ltid, h.ok.lpreds, h.ok.ltrees, h.ok.lts, h.ok.ldist, h.ok.inv⟩
    have ha1 : Anch g0 st1 := h.anch
    refine (Run.gives_lift (Q := fun t => t = st.ti p) (h.ok.getTid hp) rfl).bind ?_
    rintro _ rfl
    obtain ⟨ls, l1, l2, l3⟩ := inner_ok h.ok.good hs hy hp
    refine (Run.gives_lift (Q := fun o => o = ls) l1 rfl).bind ?_
    rintro ls rfl
    refine (adoptEdges_ok (t := st.ti p) htol hs hg hy hok1 ha1 l2).bind ?_
    rintro ⟨st2, b, d⟩ ⟨m1, m2⟩
    dsimp only at m1 m2 ⊢
    have hpr2 : st2.pr p = none := by rw [m1.pr]; exact hpr
    have hti2 : st2.ti p = st.ti p := by rw [m1.ti]; rfl
    have ho2 : Orph g0 { st2 with orphans := p :: rest } := by
      have hpe : ∀ w, st2.preds.getD w none = st.pr w := fun w => by rw [m1.preds]; rfl
      refine ⟨?_, ?_, ?_, ?_⟩
      · have := h.orph.nodup; rw [hor] at this; exact this
      · intro w hw; exact h.orph.lt w (by rw [hor]; exact hw)
      · intro w hw
        show st2.preds.getD w none = none
        rw [hpe]; exact h.orph.null w (by rw [hor]; exact hw)
      · intro v u e hu e'
        change st2.preds.getD v none = some u at e
        change st2.preds.getD u none = none at e'
        rw [hpe] at e e'
        have := h.orph.all v u e hu e'
        rw [hor] at this; exact this
    have h02 : st2.net = st0.net ∧ st2.cap = st0.cap ∧ st2.mf = st0.mf ∧ 0 < st2.gtime :=
      ⟨m1.net.trans h.net, m1.cap.trans h.cap, m1.mf.trans h.mf, by rw [m1.gtime]; exact h.pos⟩
    have hact2 : ∀ w ∈ st2.active, w < g0.length := by rw [m1.active]; exact h.act
    have hun : (unmarked g0.length st2).card ≤ (unmarked g0.length st).card := Finset.card_le_card m1.unmarked
    have hnull : st2.nulls = st.nulls := by unfold St.nulls; rw [m1.preds]
    rw [← hti2] at m2 ⊢
    cases b with
    | some c =>
      obtain ⟨q, rc, brc⟩ := c
      obtain ⟨st3, s1, s2, s3⟩ := settle_some (tol := tol) (ls := ls) hp hpr2 m1.ok m1.anch ho2 m1.orphans h02 hact2 m2
      refine (Run.gives_lift (Q := fun o => o = st3) s1 rfl).bind ?_
      rintro st3 rfl
      exact Run.gives_pure ⟨s2, Prod.Lex.left _ _ (lt_of_lt_of_le s3 hun)⟩
    | none =>
      obtain ⟨st3, s1, s2, s3, s4⟩ := settle_none (tol := tol) (d := d) hs hg hy hp hpr2 m1.ok m1.anch ho2 m1.orphans h02 hact2 l2 l3
      refine (Run.gives_lift (Q := fun o => o = st3) s1 rfl).bind ?_
      rintro st3 rfl
      refine Run.gives_pure ⟨s2, ?_⟩
      have hle : (unmarked g0.length st3).card ≤ (unmarked g0.length st).card := (Finset.card_le_card s3).trans hun
      unfold adoM
      rcases Nat.lt_or_eq_of_le hle with hlt | heq
      · exact Prod.Lex.left _ _ hlt
      · rw [heq, hor]
        refine Prod.Lex.right _ ?_
        have h1 := nulls_le s2.ok
        rw [hnull] at s4
        have h2 := nulls_le h.ok
        rw [List.length_cons]
        omega

end NW.Bk
