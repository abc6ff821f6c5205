import Verif.Lemmas.BkAdopt

/-!
# A round of `bk_maxflow`
-/

namespace NW.Bk
open Spec BackEdge
open MaxFlow (place)

variable {R : Type} [CommRing R] [LinearOrder R] [IsStrictOrderedRing R]

/-- The residual capacities belong to a flow whose value is `mf`, up to a constant. -/
structure FInv (n : Nat) (st0 st : St R) : Prop where
  sym : ∀ a b, st.r a b + st.r b a = st0.r a b + st0.r b a
  bal : ∀ v, bal n st v = bal n st0 v
  sgn : ∀ w, (0 ≤ st0.cp w → 0 ≤ st.cp w ∧ st.cp w ≤ st0.cp w) ∧ (st0.cp w ≤ 0 → st0.cp w ≤ st.cp w ∧ st.cp w ≤ 0)
  mf : st.mf + possum n st = st0.mf + possum n st0

omit [IsStrictOrderedRing R] in
theorem FInv.refl (n : Nat) (st : St R) : FInv n st st := ⟨fun _ _ => rfl, fun _ => rfl, fun _ => ⟨fun h => ⟨h, le_refl _⟩, fun h => ⟨le_refl _, h⟩⟩, rfl⟩

omit [IsStrictOrderedRing R] in
theorem FInv.trans {n : Nat} {a b c : St R} (h : FInv n a b) (h' : FInv n b c) : FInv n a c := by
  refine ⟨fun x y => (h'.sym x y).trans (h.sym x y), fun v => (h'.bal v).trans (h.bal v), fun w => ?_, h'.mf.trans h.mf⟩
  obtain ⟨h1, h2⟩ := h.sgn w
  obtain ⟨h3, h4⟩ := h'.sgn w
  exact ⟨fun h0 => ⟨(h3 (h1 h0).1).1, (h3 (h1 h0).1).2.trans (h1 h0).2⟩, fun h0 => ⟨(h2 h0).1.trans (h4 (h2 h0).2).1, (h4 (h2 h0).2).2⟩⟩

omit [IsStrictOrderedRing R] in
theorem FInv.congr {n : Nat} {a b c : St R} (h : FInv n a b) (h1 : c.net = b.net) (h2 : c.cap = b.cap) (h3 : c.mf = b.mf) : FInv n a c := by
  have e1 : c.r = b.r := by unfold St.r; rw [h1]
  have e2 : c.cp = b.cp := by unfold St.cp; rw [h2]
  have e3 : ∀ v, Bk.bal n c v = Bk.bal n b v := fun v => by unfold Bk.bal; rw [e1, e2]
  have e4 : possum n c = possum n b := by unfold possum; rw [e2]
  exact ⟨by rw [e1]; exact h.sym, fun v => (e3 v).trans (h.bal v), by rw [e2]; exact h.sgn, by rw [h3, e4]; exact h.mf⟩

omit [CommRing R] [LinearOrder R] [IsStrictOrderedRing R] in
theorem tpair_other {ti : Nat → Bool} {a b u v : Nat} (h : ti a ≠ ti b) (h' : ti u = ti v) (r r' : Nat → Nat → R) (hr : ∀ x y, ¬ (x = a ∧ y = b) → ¬ (x = b ∧ y = a) → r' x y = r x y) (t : Bool) :
    tres r' t u v = tres r t u v := by
  have : ∀ x y, ti x = ti y → r' x y = r x y := by
    intro x y hxy
    refine hr x y ?_ ?_
    · rintro ⟨rfl, rfl⟩; exact h hxy
    · rintro ⟨rfl, rfl⟩; exact h hxy.symm
  unfold tres
  split
  · exact this v u h'.symm
  · exact this u v h'

omit [IsStrictOrderedRing R] in
theorem lim_congr {g0 : Rows R} {st st' : St R} (h : Ok g0 st) {t : Bool} {w : Nat} (ht : st.ti w = t) (hpr : st'.pr w = st.pr w) (hcp : st'.cp w = st.cp w)
    (hr : ∀ u, st.ti u = t → tres st'.r t u w = tres st.r t u w) : lim g0.length st'.r st'.cp st'.pr t w = lim g0.length st.r st.cp st.pr t w := by
  unfold lim
  rw [hpr, hcp]
  cases hp : st.pr w with
  | none => rfl
  | some u =>
    dsimp only
    by_cases c : u = tgt g0.length t
    · rw [if_pos c, if_pos c]
    · rw [if_neg c, if_neg c]
      have hu : u < g0.length := (h.inv.lt w u hp).resolve_right (by rw [ht]; exact c)
      exact hr u ((h.inv.tree w u hp hu).trans ht)

/-- The edge that joins the trees. -/
theorem conn_ok {g0 : Rows R} (hs : Simple g0) (hg : InRange g0) (hy : Symm g0) {st : St R} (h : Ok g0 st) {a b : Nat} (he : Edge g0 a b) (hta : st.ti a ≠ st.ti b)
    {m : R} (hm : 0 < m) (hle : m ≤ st.r a b) :
    ∃ net, shift st.net (place g0 a b) (place g0 b a) m = .ok net ∧ Ok g0 { st with mf := st.mf + m, net := net } ∧
      (∀ x y, ¬ (x = a ∧ y = b) → ¬ (x = b ∧ y = a) → res net x y = st.r x y) ∧ (∀ x y, res net x y + res net y x = st.r x y + st.r y x) ∧
      ∀ w, bal g0.length { st with mf := st.mf + m, net := net } w = bal g0.length st w - (if w = a then m else 0) + (if w = b then m else 0) := by
  obtain ⟨net, n1, n2, n3⟩ := shift_ok h.good hs hy he m
  have hab : a ≠ b := by rintro rfl; exact (hs a).2 he
  have n3' : ∀ x y, res net x y = if x = a ∧ y = b then st.r a b - m else if x = b ∧ y = a then st.r b a + m else st.r x y := n3
  have hr : ∀ x y, ¬ (x = a ∧ y = b) → ¬ (x = b ∧ y = a) → res net x y = st.r x y := fun x y h1 h2 => by rw [n3', if_neg h1, if_neg h2]
  refine ⟨net, n1, ⟨n2, h.lcap, h.ltid, h.lpreds, h.ltrees, h.lts, h.ldist, ?_⟩, hr, ?_, ?_⟩
  · refine h.inv.recap ?_ h.inv.root ?_
    · intro x y
      show 0 ≤ res net x y
      rw [n3']
      split
      · linarith
      · split
        · have := h.inv.nonneg b a; linarith
        · exact h.inv.nonneg x y
    · intro v u hv hu
      show 0 < tres (res net) (st.ti v) u v
      rw [tpair_other hta (h.inv.tree v u hv hu) st.r (res net) hr]
      exact h.inv.pos v u hv hu
  · intro x y
    by_cases c1 : x = a ∧ y = b
    · have c2 : ¬ (x = b ∧ y = a) := by rintro ⟨e, -⟩; exact hab (c1.1.symm.trans e)
      rw [n3', if_pos c1, n3', if_neg (fun e => c2 ⟨e.2, e.1⟩), if_pos ⟨c1.2, c1.1⟩, c1.1, c1.2]; ring
    · by_cases c2 : x = b ∧ y = a
      · rw [n3', if_neg c1, if_pos c2, n3', if_pos ⟨c2.2, c2.1⟩, c2.1, c2.2]; ring
      · rw [hr x y c1 c2, hr y x (fun e => c2 ⟨e.2, e.1⟩) (fun e => c1 ⟨e.2, e.1⟩)]
  · intro w
    have := sum_shift (w := w) he.src_lt (hg _ _ he) hab n3'
    show ∑ u ∈ Finset.range g0.length, res net w u - st.cp w = ∑ u ∈ Finset.range g0.length, st.r w u - st.cp w - _ + _
    rw [this]; ring

theorem round_ok {g0 : Rows R} {tol : R} (htol : 0 ≤ tol) (hs : Simple g0) (hg : InRange g0) (hy : Symm g0) {st0 : St R} (h0 : Rest g0 st0 st0) :
    Run.Gives (round tol st0) fun x => match x with
      | .inl st => Rest g0 st st ∧ FInv g0.length st0 st ∧ possum g0.length st < possum g0.length st0
      | .inr st => Rest g0 st st ∧ FInv g0.length st0 st := by
  unfold round
  refine (grow_ok htol hs hg hy h0).bind ?_
  rintro ⟨st, c⟩ ⟨r1, r2⟩
  dsimp only at r1 r2 ⊢
  have hf : FInv g0.length st0 st := (FInv.refl _ _).congr r1.net r1.cap r1.mf
  have hps : possum g0.length st = possum g0.length st0 := by unfold possum St.cp; rw [r1.cap]
  cases c with
  | none => exact Run.gives_pure ⟨⟨r1.ok, r1.hung, rfl, rfl, rfl, r1.orphans, r1.lt⟩, hf⟩
  | some c =>
    obtain ⟨rc, brc, cs, ct⟩ := c
    obtain ⟨hc, htime⟩ := r2 _ rfl
    have e1 := hc.rc; have e2 := hc.brc
    dsimp only at e1 e2 htime ⊢
    subst e1 e2
    have hE : Edge g0 cs ct := hc.edge
    have htis : st.ti cs = false := hc.tis
    have htit : st.ti ct = true := hc.tit
    have hpos : 0 < st.r cs ct := hc.pos
    obtain ⟨ps, p1, -⟩ := r1.ok.inv.up r1.hung cs hc.prs
    obtain ⟨pt, q1, -⟩ := r1.ok.inv.up r1.hung ct hc.prt
    rw [htis] at p1
    rw [htit] at q1
    refine (Run.gives_lift (Q := fun o => o = (ct, st.r cs ct)) (read_place r1.ok.good hE) rfl).bind ?_
    rintro _ rfl
    refine (min_ok hy r1.ok q1 htit _).bind ?_
    rintro m1 ⟨a1, a2, a3⟩
    refine (min_ok hy r1.ok p1 htis _).bind ?_
    rintro m ⟨b1, b2, b3⟩
    have hm : 0 < m := b3 (a3 hpos)
    obtain ⟨net, n1, n2, n3, n4, n5⟩ := conn_ok hs hg hy r1.ok hE (by rw [htis, htit]; simp) hm (b1.trans a1)
    refine (Run.gives_lift (Q := fun o => o = net) n1 rfl).bind ?_
    rintro net rfl
    set st1 : St R := { st with mf := st.mf + m, net := net } with hst1
    have ho1 : Orph g0 st1 := by
      have e : st1.orphans = [] := r1.orphans
      refine ⟨by rw [e]; simp, by rw [e]; simp, by rw [e]; simp, ?_⟩
      intro v u hv hu hn
      exact absurd hn (r1.hung v u hv hu)
    have hlim1 : ∀ t w, st.ti w = t → lim g0.length st1.r st1.cp st1.pr t w = lim g0.length st.r st.cp st.pr t w := by
      intro t w htw
      exact lim_congr r1.ok htw rfl rfl fun u hu => tpair_other (ti := st.ti) (by rw [htis, htit]; simp) (hu.trans htw.symm) st.r st1.r n3 t
    have tit := Up.mem_ti r1.ok.inv q1 htit
    have tis := Up.mem_ti r1.ok.inv p1 htis
    refine (aug_ok hs hg hy hm pt ct st1 n2 ho1 q1 htit (fun w hw => by rw [hlim1 true w (tit w hw)]; exact b1.trans (a2 w hw))).bind ?_
    rintro st2 ⟨g1, g2, g3⟩
    have hti2 : st2.ti = st.ti := by unfold St.ti; rw [g1.tid]
    refine (aug_ok hs hg hy hm ps cs st2 g1.ok g1.orph (p1.congr fun w hw => (g1.other w (by show st.ti w ≠ _; rw [tis w hw]; simp)).1) (by rw [hti2]; exact htis) ?_).bind ?_
    · intro w hw
      have hw' : st1.ti w = false := tis w hw
      have hne : st1.ti w ≠ true := by rw [hw']; simp
      rw [lim_congr (st := st1) n2 hw' (g1.other w hne).1 (g1.other w hne).2 ?_, hlim1 false w hw']
      · exact b2 w hw
      · intro u _
        unfold tres
        rw [if_neg (by simp), if_neg (by simp)]
        exact g1.rother u w (Or.inr hne)
    · rintro st3 ⟨k1, k2, k3⟩
      have hmf : st3.mf = st.mf + m := k1.mf.trans g1.mf
      rw [if_neg (by simp), g2, if_pos rfl] at k2
      have hp1 : possum g0.length st1 = possum g0.length st := rfl
      rw [hp1, sub_zero] at k2
      have hado : Ado g0 st3 st3 := by
        refine ⟨k1.ok, k1.orph, ?_, rfl, rfl, rfl, ?_, ?_⟩
        · intro v _ hv
          exfalso
          have := htime v
          unfold St.tsf at hv this
          rw [k1.ts, g1.ts, k1.gtime, g1.gtime] at hv
          change st.ts.getD v 0 = st.gtime at hv
          omega
        · rw [k1.gtime, g1.gtime]
          exact lt_of_le_of_lt (Nat.zero_le _) (htime 0)
        · rw [k1.active, g1.active]; exact r1.lt
      have hf3 : FInv g0.length st st3 := by
        refine ⟨?_, ?_, ?_, ?_⟩
        · intro x y
          rw [k1.sym, g1.sym]; exact n4 x y
        · intro v
          rw [k3, g3]
          show Bk.bal g0.length { st with mf := st.mf + m, net := net } v - _ - _ = _
          rw [n5]
          have s1 : sg true m = m := rfl
          have s2 : sg false m = -m := rfl
          rw [s1, s2]
          split <;> split <;> ring
        · intro w
          obtain ⟨x1, x2⟩ := g1.sgn w
          obtain ⟨x3, x4⟩ := k1.sgn w
          exact ⟨fun h0 => ⟨(x3 (x1 h0).1).1, (x3 (x1 h0).1).2.trans (x1 h0).2⟩, fun h0 => ⟨(x2 h0).1.trans (x4 (x2 h0).2).1, (x4 (x2 h0).2).2⟩⟩
        · rw [hmf, k2]; ring
      refine (adopt_ok htol hs hg hy hado).bind ?_
      rintro st4 ⟨z1, z2, z3, z4⟩
      refine Run.gives_pure ⟨z1, (hf.trans hf3).congr z2 z3 z4, ?_⟩
      have : possum g0.length st4 = possum g0.length st3 := by unfold possum St.cp; rw [z3]
      rw [this, k2, hps]
      linarith

end NW.Bk
