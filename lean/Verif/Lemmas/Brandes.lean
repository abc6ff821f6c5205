import Verif.Model.Brandes
import Verif.Lemmas.Fifo
import Verif.Lemmas.ListRes
import Verif.Lemmas.Dsu
import Verif.Lemmas.Dependency

/-! # Lemmas: the two phases of Brandes' algorithm for one source -/

namespace NW.Brandes
open Spec Fifo
open NW.Dsu (getElem?_set_ite)

variable {α : Type}

/-- `w` is one step further than `v`. -/
def isNext (D : Nat → Option Nat) (v w : Nat) : Bool :=
  match D v, D w with
  | some x, some y => y == x + 1
  | _, _ => false

theorem isNext_iff {D : Nat → Option Nat} {v w : Nat} : isNext D v w = true ↔ ∃ x, D v = some x ∧ D w = some (x + 1) := by
  unfold isNext
  constructor
  · intro h
    split at h
    · rename_i x y h1 h2
      simp at h; subst h
      exact ⟨x, h1, h2⟩
    · cases h
  · rintro ⟨x, h1, h2⟩
    rw [h1, h2]; simp

/-- `a` represents the function `f` on the vertices. -/
def Vec {β : Type} (n : Nat) (f : Nat → β) (a : List β) : Prop := a.length = n ∧ ∀ v < n, a[v]? = some (f v)

theorem Vec.vget {β : Type} {n : Nat} {f : Nat → β} {a : List β} (h : Vec n f a) {v : Nat} (hv : v < n) : vget a v = .ok (f v) :=
  vget_eq_ok.2 (h.2 v hv)

theorem Vec.vset {β : Type} {n : Nat} {f : Nat → β} {a : List β} (h : Vec n f a) {v : Nat} (hv : v < n) (x : β) :
    vset a v x = .ok (a.set v x) ∧ Vec n (fun w => if w = v then x else f w) (a.set v x) := by
  refine ⟨vset_of_lt (by rw [h.1]; exact hv), by simp [h.1], ?_⟩
  intro w hw
  rw [getElem?_set_ite (by rw [h.1]; exact hv)]
  show _ = some (if w = v then x else f w)
  by_cases c : v = w
  · rw [if_pos c, if_pos c.symm]
  · rw [if_neg c, if_neg fun e : w = v => c e.symm]; exact h.2 w hw

theorem Vec.congr {β : Type} {n : Nat} {f f' : Nat → β} {a : List β} (h : Vec n f a) (hf : ∀ v < n, f v = f' v) : Vec n f' a :=
  ⟨h.1, fun v hv => by rw [← hf v hv]; exact h.2 v hv⟩

theorem Vec.replicate {β : Type} (n : Nat) (x : β) : Vec n (fun _ => x) (List.replicate n x) :=
  ⟨by simp, fun v hv => by rw [List.getElem?_replicate, if_pos hv]⟩

/-- The number stored in `d`. -/
def stored (D : Nat → Option Nat) (v : Nat) : Int := match D v with | some x => (x : Int) | none => -1

theorem stored_eq {D : Nat → Option Nat} {v w x : Nat} (hv : D v = some x) : stored D w = stored D v + 1 ↔ D w = some (x + 1) := by
  unfold stored
  rw [hv]
  cases D w with
  | none => simp; omega
  | some y => simp; omega

/-- The arrays represent the ghost values. -/
structure Rep (M n : Nat) (st : Fwd) (D : Nat → Option Nat) (G : Nat → Nat) (Pf : Nat → List Nat) : Prop where
  d : Vec n (stored D) st.d
  pc : Vec n (fun v => G v % M) st.pc
  P : Vec n Pf st.P

/-- What has been recorded, while the neighbours `sc` of `u` have been looked at. -/
structure Cnt (g : Rows α) (s : Nat) (done : List Nat) (u : Nat) (sc : List Nat) (D : Nat → Option Nat) (G : Nat → Nat) (Pf : Nat → List Nat) :
    Prop where
  cnt : ∀ v w, (Pf w).count v = if isNext D v w then (if v ∈ done then mult g v w else if v = u then sc.count w else 0) else 0
  sum : ∀ w, G w = (if w = s then 1 else 0) + ((Pf w).map G).sum

/-- The same between vertices. -/
structure CntI (g : Rows α) (s : Nat) (done : List Nat) (D : Nat → Option Nat) (G : Nat → Nat) (Pf : Nat → List Nat) :
    Prop where
  cnt : ∀ v w, (Pf w).count v = if isNext D v w then (if v ∈ done then mult g v w else 0) else 0
  sum : ∀ w, G w = (if w = s then 1 else 0) + ((Pf w).map G).sum

theorem CntI.start {g : Rows α} {s : Nat} {done : List Nat} {D : Nat → Option Nat} {G : Nat → Nat} {Pf : Nat → List Nat} (h : CntI g s done D G Pf)
    (u : Nat) : Cnt g s done u [] D G Pf :=
  ⟨fun v w => by rw [h.cnt]; simp, h.sum⟩

theorem Cnt.finish {g : Rows α} {s : Nat} {done : List Nat} {u : Nat} {D : Nat → Option Nat} {G : Nat → Nat} {Pf : Nat → List Nat}
    (h : Cnt g s done u (nbrs g u) D G Pf) (hu : u ∉ done) : CntI g s (done ++ [u]) D G Pf := by
  refine ⟨fun v w => ?_, h.sum⟩
  rw [h.cnt]
  by_cases c : v = u
  · subst c; simp [hu, mult]
  · simp [c]

theorem Cnt.discover {g : Rows α} {s : Nat} {done : List Nat} {u : Nat} {sc q : List Nat} {D par : Nat → Option Nat} {G : Nat → Nat}
    {Pf : Nat → List Nat} {w x : Nat} (h : Cnt g s done u sc D G Pf) (hm : Mid g s done u sc q D par) (hw : D w = none) (hu : D u = some x) :
    Cnt g s done u sc (upd D w (x + 1)) G Pf := by
  refine ⟨fun v w' => ?_, h.sum⟩
  rw [h.cnt]
  have hnew : w ∉ done ++ u :: q := by
    intro hmem
    obtain ⟨d, hd⟩ := (hm.disc w).1 hmem
    rw [hw] at hd; cases hd
  have hwd : w ∉ done := fun hh => hnew (by simp [hh])
  have hwu : w ≠ u := by rintro rfl; exact hnew (by simp)
  by_cases c : w' = w
  · subst c
    have h0 : isNext D v w' = false := by
      unfold isNext; rw [hw]; cases D v <;> rfl
    rw [h0]
    simp only [Bool.false_eq_true, if_false]
    split
    · split
      · rename_i hv
        rcases Nat.eq_zero_or_pos (mult g v w') with e | e
        · exact e.symm
        · obtain ⟨_, y, -, h2, -⟩ := hm.closed v hv w' (mult_pos.1 e)
          rw [hw] at h2; cases h2
      · split
        · symm
          rw [List.count_eq_zero]
          intro hs
          obtain ⟨_, y, -, h2, -⟩ := hm.here w' hs
          rw [hw] at h2; cases h2
        · rfl
    · rfl
  · by_cases c2 : v = w
    · subst c2
      simp [hwd, hwu]
    · have : isNext (upd D w (x + 1)) v w' = isNext D v w' := by
        unfold isNext upd; simp [c, c2]
      rw [this]

theorem Cnt.skip {g : Rows α} {s : Nat} {done : List Nat} {u : Nat} {sc : List Nat} {D : Nat → Option Nat} {G : Nat → Nat}
    {Pf : Nat → List Nat} {w : Nat} (h : Cnt g s done u sc D G Pf) (hn : isNext D u w = false) : Cnt g s done u (sc ++ [w]) D G Pf := by
  refine ⟨fun v w' => ?_, h.sum⟩
  rw [h.cnt]
  by_cases c : w' = w
  · subst c
    by_cases c2 : v = u
    · subst c2; rw [hn]; simp
    · simp [c2]
  · have : (sc ++ [w]).count w' = sc.count w' := by
      rw [List.count_append, List.count_cons]; simp; exact fun e => c e.symm
    rw [this]

theorem Cnt.record {g : Rows α} {s : Nat} {done : List Nat} {u : Nat} {sc q : List Nat} {D par : Nat → Option Nat} {G : Nat → Nat}
    {Pf : Nat → List Nat} {w : Nat} (h : Cnt g s done u sc D G Pf) (hm : Mid g s done u sc q D par) (hn : isNext D u w = true) :
    Cnt g s done u (sc ++ [w]) D (fun z => if z = w then G w + G u else G z) (fun z => if z = w then Pf w ++ [u] else Pf z) := by
  obtain ⟨x, hx, hwx⟩ := isNext_iff.1 hn
  have hud : u ∉ done := by
    have := hm.nodup
    rw [List.nodup_append] at this
    exact fun hh => this.2.2 u hh u (by simp) rfl
  have hwu : w ≠ u := by rintro rfl; rw [hx] at hwx; cases hwx
  have hwd : w ∉ done := by
    intro hh
    have := (List.pairwise_append.1 hm.mono).2.2 w hh u (by simp) (x + 1) x hwx hx
    omega
  have hmem : ∀ z v, v ∈ Pf z → v ≠ w := by
    rintro z v hv rfl
    have h1 : 0 < (Pf z).count v := List.count_pos_iff.2 hv
    rw [h.cnt] at h1
    simp [hwd, hwu] at h1
  have hsumeq : ∀ z, ((Pf z).map fun y => if y = w then G w + G u else G y) = (Pf z).map G := by
    intro z
    apply List.map_congr_left
    intro y hy
    rw [if_neg (hmem z y hy)]
  refine ⟨fun v z => ?_, fun z => ?_⟩
  · by_cases c : z = w
    · subst c
      rw [if_pos rfl, List.count_append, h.cnt]
      by_cases c2 : v = u
      · subst c2
        rw [hn]
        simp [hud]
      · have : List.count v [u] = 0 := by
          rw [List.count_eq_zero]; simpa using c2
        rw [this]; simp [c2]
    · have : (sc ++ [w]).count z = sc.count z := by
        rw [List.count_append, List.count_cons]; simp; exact fun e => c e.symm
      rw [if_neg c, h.cnt, this]
  · by_cases c : z = w
    · subst c
      rw [if_pos rfl, if_pos rfl, List.map_append, List.sum_append, hsumeq]
      have := h.sum z
      rw [List.map_cons, if_neg (fun e : u = z => hwu e.symm), List.map_nil, List.sum_cons, List.sum_nil]
      omega
    · rw [if_neg c, if_neg c, hsumeq]; exact h.sum z

/-- One neighbour. -/
theorem fwdEdge_step (M : Nat) {g : Rows α} (hg : InRange g) {s : Nat} {done : List Nat} {u : Nat} {sc : List Nat}
    {D par : Nat → Option Nat} {G : Nat → Nat} {Pf : Nat → List Nat} {st : Fwd} {e : Nat × α} (hm : Mid g s done u sc st.Q D par)
    (hc : Cnt g s done u sc D G Pf) (hr : Rep M g.length st D G Pf) (he : Edge g u e.1) :
    ∃ st' D' par' G' Pf', fwdEdge M u st e = .ok st' ∧ Mid g s done u (sc ++ [e.1]) st'.Q D' par' ∧ Cnt g s done u (sc ++ [e.1]) D' G' Pf' ∧
      Rep M g.length st' D' G' Pf' ∧ st'.S = st.S := by
  obtain ⟨w, a⟩ := e
  simp only [] at he
  have hwn := hg u w he
  have hun := he.src_lt
  obtain ⟨x, hx⟩ := hm.self
  -- discovery
  obtain ⟨st1, D1, par1, h1, hm1, hc1, hr1, hS1, hx1, y, hy1⟩ : ∃ st1 D1 par1, discover u w st = .ok st1 ∧
      Mid g s done u (sc ++ [w]) st1.Q D1 par1 ∧ Mid g s done u sc st1.Q D1 par1 ∧ (Cnt g s done u sc D1 G Pf ∧ Rep M g.length st1 D1 G Pf) ∧ st1.S = st.S ∧ D1 u = some x ∧
      ∃ y, D1 w = some y := by
    unfold discover
    rw [hr.d.vget hwn, res_bind_ok]
    cases hcw : D w with
    | some y =>
      rw [if_neg (by unfold stored; rw [hcw]; simp)]
      exact ⟨st, D, par, rfl, hm.seen hcw, hm, ⟨hc, hr⟩, rfl, hx, y, hcw⟩
    | none =>
      rw [if_pos (by unfold stored; rw [hcw]; simp), hr.d.vget hun, res_bind_ok]
      obtain ⟨e1, e2⟩ := hr.d.vset hwn (stored D u + 1)
      rw [e1, res_bind_ok]
      have hwu : u ≠ w := by rintro rfl; rw [hx] at hcw; cases hcw
      have hmd := hm.discover hcw he hx
      refine ⟨_, upd D w (x + 1), upd par w u, rfl, hmd, { hmd with here := fun z hz => hmd.here z (by simp [hz]) }, ⟨hc.discover hm hcw hx, ?_, hr.pc, hr.P⟩, rfl, ?_, x + 1, ?_⟩
      · refine e2.congr fun v _ => ?_
        by_cases c : v = w
        · subst c; unfold stored upd; simp [hx]
        · unfold stored upd; simp [c]
      · simp [upd, hwu, hx]
      · simp [upd]
  obtain ⟨hc1', hr1'⟩ := hr1
  -- recording
  unfold fwdEdge record
  simp only []
  rw [h1, res_bind_ok, hr1'.d.vget hwn, res_bind_ok, hr1'.d.vget hun, res_bind_ok]
  split
  · rename_i hst
    have hn : isNext D1 u w = true := isNext_iff.2 ⟨x, hx1, (stored_eq hx1).1 hst⟩
    rw [hr1'.pc.vget hwn, res_bind_ok, hr1'.pc.vget hun, res_bind_ok]
    obtain ⟨e1, e2⟩ := hr1'.pc.vset hwn ((G w % M + G u % M) % M)
    obtain ⟨e3, e4⟩ := hr1'.P.vset hwn (Pf w ++ [u])
    rw [e1, res_bind_ok, hr1'.P.vget hwn, res_bind_ok, e3, res_bind_ok]
    refine ⟨_, D1, par1, _, _, rfl, hm1, hc1'.record hc1 hn, ⟨hr1'.d, ?_, e4⟩, hS1⟩
    refine e2.congr fun v _ => ?_
    by_cases c : v = w
    · rw [if_pos c, if_pos c, ← Nat.add_mod]
    · rw [if_neg c, if_neg c]
  · rename_i hst
    have hn : isNext D1 u w = false := by
      cases hb : isNext D1 u w with
      | false => rfl
      | true =>
        obtain ⟨x', a1, a2⟩ := isNext_iff.1 hb
        rw [hx1] at a1; cases a1
        exact absurd ((stored_eq hx1).2 a2) hst
    exact ⟨st1, D1, par1, G, Pf, rfl, hm1, hc1'.skip hn, hr1', hS1⟩

/-- The invariant of the search. -/
structure FInv (M : Nat) (g : Rows α) (s : Nat) (st : Fwd) (done : List Nat) (D par : Nat → Option Nat) (G : Nat → Nat) (Pf : Nat → List Nat) : Prop where
  S : st.S = done.reverse
  inv : Inv g s done st.Q D par
  cnt : CntI g s done D G Pf
  rep : Rep M g.length st D G Pf

theorem fwd_gives (M : Nat) {g : Rows α} (hg : InRange g) {s : Nat} (hs : s < g.length) (st : Fwd) (h : fwdInit M g.length s = .ok st) :
    Run.Gives (Run.loop (fwdBody M g) st) fun r => ∃ done D par G Pf, r.Q = [] ∧ FInv M g s r done D par G Pf := by
  refine Run.gives_loop (fun st => ∃ done D par G Pf, FInv M g s st done D par G Pf) (fun st => g.length - st.S.length) ?_ st ?_
  · rintro st ⟨done, D, par, G, Pf, hi⟩
    have hinv := hi.inv
    unfold fwdBody
    cases hQ : st.Q with
    | nil => exact Or.inr ⟨st, rfl, done, D, par, G, Pf, hQ, hi⟩
    | cons u q =>
      left
      rw [hQ] at hinv
      have hun : u < g.length := hinv.lt hg hs (v := u) (by simp)
      simp only []
      rw [vget_of_lt hun, res_bind_ok]
      have hrow : (g[u]'hun).map Prod.fst = nbrs g u := by
        rw [nbrs, List.getD_eq_getElem?_getD, List.getElem?_eq_getElem hun]; rfl
      obtain ⟨st', hf, hI⟩ := foldlM_list_inv (f := fwdEdge M u) (l := g[u]'hun)
        (fun pre (x : Fwd) => ∃ D' par' G' Pf', Mid g s done u (pre.map Prod.fst) x.Q D' par' ∧ Cnt g s done u (pre.map Prod.fst) D' G' Pf' ∧
          Rep M g.length x D' G' Pf' ∧ x.S = u :: st.S)
        (s := { st with Q := q, S := u :: st.S })
        ⟨D, par, G, Pf, hinv.start, hi.cnt.start u, ⟨hi.rep.d, hi.rep.pc, hi.rep.P⟩, rfl⟩ (by
          rintro pre x post hl y ⟨D', par', G', Pf', a1, a2, a3, a4⟩
          obtain ⟨st', D2, par2, G2, Pf2, b1, b2, b3, b4, b5⟩ := fwdEdge_step M hg a1 a2 a3 (e := x) (by
            rw [Edge, ← hrow, hl]; simp)
          exact ⟨st', b1, D2, par2, G2, Pf2, by rw [List.map_append]; exact b2, by rw [List.map_append]; exact b3, b4, b5.trans a4⟩)
      rw [hf, res_bind_ok]
      obtain ⟨D', par', G', Pf', a1, a2, a3, a4⟩ := hI
      rw [hrow] at a1 a2
      have hud : u ∉ done := by
        have := a1.nodup
        rw [List.nodup_append] at this
        exact fun hh => this.2.2 u hh u (by simp) rfl
      refine ⟨st', rfl, ⟨done ++ [u], D', par', G', Pf', ?_, a1.finish, a2.finish hud, a3⟩, ?_⟩
      · rw [a4, hi.S]; simp
      · have := hinv.length_le hg hs
        simp only [List.length_append, List.length_cons] at this
        rw [a4, hi.S]
        simp only [List.length_cons, List.length_reverse]
        omega
  · unfold fwdInit at h
    obtain ⟨e1, e2⟩ := (Vec.replicate g.length 0).vset hs (1 % M)
    obtain ⟨e3, e4⟩ := (Vec.replicate g.length (-1 : Int)).vset hs 0
    rw [e1, res_bind_ok, e3, res_bind_ok] at h
    cases h
    refine ⟨[], _, _, fun v => if v = s then 1 else 0, fun _ => [], rfl, Inv.init g s, ⟨?_, ?_⟩, ?_, ?_, Vec.replicate _ _⟩
    · intro v w; simp
    · intro w; simp
    · refine e4.congr fun v _ => ?_
      by_cases c : v = s <;> simp [c, stored, upd]
    · refine e2.congr fun v _ => ?_
      by_cases c : v = s <;> simp [c]

/-- The counts are the numbers of shortest paths. -/
theorem FInv.count {M : Nat} {g : Rows α} (hg : InRange g) {s : Nat} {st : Fwd} {done : List Nat} {D par : Nat → Option Nat}
    {G : Nat → Nat} {Pf : Nat → List Nat} (h : FInv M g s st done D par G Pf) (hQ : st.Q = []) (d w : Nat) (hw : D w = some d) : G w = nw g d s w := by
  have hinv := h.inv
  rw [hQ] at hinv
  have hdist := hinv.dist
  induction d generalizing w with
  | zero =>
    have hws : w = s := ((hdist w 0).1 hw).of_zero
    have hP : Pf w = [] := by
      rw [List.eq_nil_iff_forall_not_mem]
      intro v hv
      have h1 : 0 < (Pf w).count v := List.count_pos_iff.2 hv
      rw [h.cnt.cnt] at h1
      split at h1
      · rename_i hn
        obtain ⟨x, -, h2⟩ := isNext_iff.1 hn
        rw [hw] at h2; cases h2
      · omega
    rw [h.cnt.sum, hP, hws, nw_zero]; simp
  | succ d ih =>
    have hd := (hdist w (d + 1)).1 hw
    have hws : w ≠ s := by
      rintro rfl
      have := hd.2 0 .nil; omega
    rw [h.cnt.sum, if_neg hws, Nat.zero_add, sum_list_count _ _ g.length, nw_last hg]
    · refine Finset.sum_congr rfl fun v hv => ?_
      rw [h.cnt.cnt]
      by_cases c : D v = some d
      · have hn : isNext D v w = true := isNext_iff.2 ⟨d, c, hw⟩
        have hvd : v ∈ done := by
          have := (hinv.disc v).2 ⟨d, c⟩
          simpa using this
        rw [hn, if_pos rfl, if_pos hvd, ih v c, Nat.mul_comm]
      · have hn : isNext D v w = false := by
          cases hb : isNext D v w with
          | false => rfl
          | true =>
            obtain ⟨x, a1, a2⟩ := isNext_iff.1 hb
            rw [hw] at a2; cases a2
            exact absurd a1 c
        rw [hn]
        simp only [Bool.false_eq_true, if_false, Nat.zero_mul]
        symm
        by_contra hne
        have m1 : 0 < nw g d s v := Nat.pos_iff_ne_zero.2 fun e => hne (by rw [e, Nat.zero_mul])
        have m2 : 0 < mult g v w := Nat.pos_iff_ne_zero.2 fun e => hne (by rw [e, Nat.mul_zero])
        apply c
        refine (hdist v d).2 ⟨(nw_pos hg).1 m1, ?_⟩
        intro k hk
        have := hd.2 _ (hk.snoc (mult_pos.1 m2))
        omega
    · intro v hv
      have h1 : 0 < (Pf w).count v := List.count_pos_iff.2 hv
      rw [h.cnt.cnt] at h1
      split at h1
      · split at h1
        · exact (mult_pos.1 h1).src_lt
        · omega
      · omega

/-! ## The way back -/

theorem backPred_fold {n : Nat} {pc : List Nat} {Gf : Nat → Nat} (hpc : Vec n Gf pc) {w : Nat} (hw : w < n) (A : ℚ) (ps : List Nat)
    (hps : ∀ v ∈ ps, v < n ∧ v ≠ w) {delta : List ℚ} {f : Nat → ℚ} (hd : Vec n f delta) (hA : f w = A) :
    ∃ delta', ps.foldlM (backPred pc w) delta = .ok delta' ∧ Vec n (fun v => f v + (ps.count v : ℚ) * ((Gf v : ℚ) / (Gf w : ℚ) * (1 + A))) delta' := by
  induction ps generalizing delta f with
  | nil => exact ⟨delta, rfl, hd.congr fun v _ => by simp⟩
  | cons v ps ih =>
    obtain ⟨hv, hvw⟩ := hps v (by simp)
    obtain ⟨e1, e2⟩ := hd.vset hv (f v + (Gf v : ℚ) / (Gf w : ℚ) * (1 + f w))
    obtain ⟨delta', e3, e4⟩ := ih (fun x hx => hps x (by simp [hx])) e2 (by
      show (if w = v then _ else f w) = A
      rw [if_neg fun e => hvw e.symm]; exact hA)
    refine ⟨delta', ?_, e4.congr fun x _ => ?_⟩
    · rw [List.foldlM_cons]
      have : backPred pc w delta v = .ok (delta.set v (f v + (Gf v : ℚ) / (Gf w : ℚ) * (1 + f w))) := by
        unfold backPred
        rw [hpc.vget hv, res_bind_ok, hpc.vget hw, res_bind_ok, hd.vget hw, res_bind_ok, hd.vget hv, res_bind_ok, e1]
      rw [this, res_bind_ok, e3]
    · rw [List.count_cons]
      by_cases c : x = v
      · subst c
        rw [if_pos rfl, hA]
        simp
        ring
      · have : (v == x) = false := by simpa using fun e : v = x => c e.symm
        rw [if_neg c, this]; simp

/-- What a source adds to the scores, when the vertex `z` is left out. -/
theorem back_correct {M : Nat} {g : Rows α} (hg : InRange g) {s : Nat} (hs : s < g.length) {st : Fwd} {done : List Nat} {D par : Nat → Option Nat}
    {G : Nat → Nat} {Pf : Nat → List Nat} (h : FInv M g s st done D par G Pf) (hQ : st.Q = [])
    (hfit : ∀ t d, IsDist g s t d → nw g d s t < M) {cent : List ℚ} {c0 : Nat → ℚ} (hc : Vec g.length c0 cent) (z : Nat) :
    ∃ x, st.S.foldlM (backStep st z) (List.replicate g.length 0, cent) = .ok x ∧
      Vec g.length (fun v => c0 v + if v ≠ z then dependency g s v else 0) x.2 := by
  have hinv := h.inv
  rw [hQ] at hinv
  have hdist := hinv.dist
  have hcount := fun d w hw => h.count hg hQ d w hw
  have hmemD : ∀ v, v ∈ done ↔ ∃ d, D v = some d := by
    intro v; have := hinv.disc v; rwa [List.append_nil] at this
  have hmono : done.Pairwise (fun a b => ∀ x y, D a = some x → D b = some y → x ≤ y) := by
    have := hinv.mono; rwa [List.append_nil] at this
  have hnodup : done.Nodup := by have := hinv.nodup; rwa [List.append_nil] at this
  have hPlt : ∀ w v, v ∈ Pf w → v < g.length ∧ isNext D v w = true := by
    intro w v hv
    have h1 : 0 < (Pf w).count v := List.count_pos_iff.2 hv
    rw [h.cnt.cnt] at h1
    split at h1
    · rename_i hn
      split at h1
      · exact ⟨(mult_pos.1 h1).src_lt, hn⟩
      · omega
    · omega
  obtain ⟨x, hx, hI⟩ := foldlM_list_inv (f := backStep st z) (l := st.S)
    (fun pre (x : List ℚ × List ℚ) =>
      Vec g.length (fun v => (pre.map fun w => ((Pf w).count v : ℚ) * (((G v % M : Nat) : ℚ) / ((G w % M : Nat) : ℚ) * acc g s D w)).sum) x.1 ∧
      Vec g.length (fun v => c0 v + if v ∈ pre ∧ v ≠ z then acc g s D v - 1 else 0) x.2)
    (s := (List.replicate g.length 0, cent))
    ⟨(Vec.replicate g.length (0 : ℚ)).congr fun _ _ => by simp, hc.congr fun v _ => by simp⟩ (by
      rintro pre w post hl ⟨delta, ce⟩ ⟨h1, h2⟩
      have h1 : Vec g.length (fun v => (pre.map fun w => ((Pf w).count v : ℚ) * (((G v % M : Nat) : ℚ) / ((G w % M : Nat) : ℚ) * acc g s D w)).sum) delta := h1
      have h2 : Vec g.length (fun v => c0 v + if v ∈ pre ∧ v ≠ z then acc g s D v - 1 else 0) ce := h2
      have hrev : done = post.reverse ++ w :: pre.reverse := by
        have : st.S.reverse = (pre ++ w :: post).reverse := by rw [hl]
        rw [h.S, List.reverse_reverse] at this
        rw [this]; simp
      have hwd : w ∈ done := by rw [hrev]; simp
      obtain ⟨i, hi⟩ := (hmemD w).1 hwd
      have hwn : w < g.length := ((hdist w i).1 hi).1.lt hg hs
      have hwpre : w ∉ pre := by
        rw [hrev] at hnodup
        have := (List.nodup_cons.1 (List.nodup_append.1 hnodup).2.1).1
        simpa using this
      have hmod : ∀ t d, D t = some d → G t % M = nw g d s t := by
        intro t d ht
        rw [hcount d t ht, Nat.mod_eq_of_lt (hfit t d ((hdist t d).1 ht))]
      have hprelt : ∀ x ∈ pre, x < g.length := by
        intro x hx
        have : x ∈ done := by rw [hrev]; simp [hx]
        obtain ⟨j, hj⟩ := (hmemD x).1 this
        exact ((hdist x j).1 hj).1.lt hg hs
      -- the value at `w` is final
      have hdelta : (pre.map fun x => ((Pf x).count w : ℚ) * (((G w % M : Nat) : ℚ) / ((G x % M : Nat) : ℚ) * acc g s D x)).sum = acc g s D w - 1 := by
        rw [sum_list_countQ pre _ g.length hprelt, acc_rec hg hs hdist hi, add_sub_cancel_left]
        refine Finset.sum_congr rfl fun x hx => ?_
        have hxn := Finset.mem_range.1 hx
        by_cases c : D x = some (i + 1)
        · have hxd : x ∈ done := (hmemD x).2 ⟨_, c⟩
          have hxpre : x ∈ pre := by
            rw [hrev, List.mem_append, List.mem_cons] at hxd
            rcases hxd with hxd | hxd | hxd
            · rw [hrev] at hmono
              have := (List.pairwise_append.1 hmono).2.2 x hxd w (by simp) (i + 1) i c hi
              omega
            · subst hxd; rw [hi] at c; cases c
            · simpa using hxd
          have hpn : pre.Nodup := by
            rw [hrev] at hnodup
            have := (List.nodup_cons.1 (List.nodup_append.1 hnodup).2.1).2
            simpa using this
          rw [List.count_eq_one_of_mem hpn hxpre, if_pos c, h.cnt.cnt, if_pos (isNext_iff.2 ⟨i, hi, c⟩), if_pos hwd, hmod w i hi, hmod x (i + 1) c]
          simp
          ring
        · rw [if_neg c]
          have : isNext D w x = false := by
            cases hb : isNext D w x with
            | false => rfl
            | true =>
              obtain ⟨y, a1, a2⟩ := isNext_iff.1 hb
              rw [hi] at a1; cases a1
              exact absurd a2 c
          rw [h.cnt.cnt, this]; simp
      have hpw : ∀ v ∈ Pf w, v < g.length ∧ v ≠ w := by
        intro v hv
        obtain ⟨a, b⟩ := hPlt w v hv
        refine ⟨a, ?_⟩
        rintro rfl
        obtain ⟨y, b1, b2⟩ := isNext_iff.1 b
        rw [b1] at b2; cases b2
      obtain ⟨delta', f1, f2⟩ := backPred_fold h.rep.pc hwn (acc g s D w - 1) (Pf w) hpw h1 hdelta
      have hself : (Pf w).count w = 0 := List.count_eq_zero.2 fun hh => (hpw w hh).2 rfl
      have f2' : Vec g.length (fun v => ((pre ++ [w]).map fun w => ((Pf w).count v : ℚ) * (((G v % M : Nat) : ℚ) / ((G w % M : Nat) : ℚ) * acc g s D w)).sum) delta' :=
        f2.congr fun v _ => by
          rw [List.map_append, List.sum_append]
          simp
      unfold backStep
      rw [h.rep.P.vget hwn, res_bind_ok]
      simp only []
      rw [f1, res_bind_ok]
      by_cases c : w = z
      · rw [if_neg (by simpa using c)]
        refine ⟨_, rfl, f2', h2.congr fun v _ => ?_⟩
        by_cases e : v = w
        · subst e; simp [c]
        · simp [e]
      · rw [if_pos c, f2.vget hwn, res_bind_ok, h2.vget hwn, res_bind_ok]
        obtain ⟨e1, e2⟩ := h2.vset hwn ((c0 w + if w ∈ pre ∧ w ≠ z then acc g s D w - 1 else 0) +
          ((pre.map fun x => ((Pf x).count w : ℚ) * (((G w % M : Nat) : ℚ) / ((G x % M : Nat) : ℚ) * acc g s D x)).sum +
            ((Pf w).count w : ℚ) * (((G w % M : Nat) : ℚ) / ((G w % M : Nat) : ℚ) * (1 + (acc g s D w - 1)))))
        rw [e1, res_bind_ok]
        refine ⟨_, rfl, f2', e2.congr fun v _ => ?_⟩
        by_cases e : v = w
        · subst e
          rw [if_pos rfl, hdelta, hself]
          simp [hwpre, c]
        · rw [if_neg e]
          simp [e])
  refine ⟨x, hx, hI.2.congr fun v hv => ?_⟩
  congr 1
  by_cases c : v = z
  · simp [c]
  · have hmem : v ∈ st.S ↔ ∃ d, D v = some d := by rw [h.S, List.mem_reverse, hmemD]
    cases hD : D v with
    | none =>
      rw [if_neg (by rw [hmem, hD]; simp), if_pos c, dependency_unreachable hg hs hdist hD]
    | some d =>
      rw [if_pos ⟨hmem.2 ⟨d, hD⟩, c⟩, if_pos c, acc_eq_dependency hg hs hdist hD]
      ring

end NW.Brandes
