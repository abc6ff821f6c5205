import Verif.Model.BcWork
import Verif.Lemmas.Brandes
import Verif.Lemmas.BcExp
import Verif.Spec.Simple

/-! # Lemmas: the work list of edges finds the same levels, counts and predecessors as the search of Brandes' algorithm -/

namespace NW.BcWork
open Spec Fifo
open NW.Brandes (Vec isNext isNext_iff Cnt CntI FInv)

variable {α : Type}

theorem simple_length (g : Rows α) : (simple g).length = g.length := by simp [simple]

theorem nbrs_simple (g : Rows α) (u : Nat) : nbrs (simple g) u = (nbrs g u).eraseDups := by
  unfold nbrs simple
  rw [List.getD_eq_getElem?_getD, List.getD_eq_getElem?_getD, List.getElem?_map]
  cases g[u]? with
  | none => rfl
  | some row =>
    simp only [Option.map_some, Option.getD_some, List.map_map]
    exact List.map_id _

theorem edge_simple {g : Rows α} {u w : Nat} : Edge (simple g) u w ↔ Edge g u w := by
  unfold Edge
  rw [nbrs_simple, List.mem_eraseDups]

theorem simple_inRange {g : Rows α} (hg : InRange g) : InRange (simple g) := fun u w h => by
  rw [simple_length]; exact hg u w (edge_simple.1 h)

theorem eraseDups_snoc (l : List Nat) (w : Nat) : (l ++ [w]).eraseDups = if w ∈ l then l.eraseDups else l.eraseDups ++ [w] := by
  rw [List.eraseDups_append]
  by_cases c : w ∈ l
  · rw [if_pos c]
    have : [w].removeAll l = [] := by simp [List.removeAll, c]
    rw [this]; simp
  · rw [if_neg c]
    have : [w].removeAll l = [w] := by simp [List.removeAll, c]
    rw [this]; rfl

theorem eraseDups_nodup (l : List Nat) : l.eraseDups.Nodup := by
  induction l using List.reverseRecOn with
  | nil => simp
  | append_singleton l w ih =>
    rw [eraseDups_snoc]
    split
    · exact ih
    · rename_i c
      rw [List.nodup_append]
      refine ⟨ih, by simp, ?_⟩
      rintro a ha b hb rfl
      simp at hb; subst hb
      exact c (List.mem_eraseDups.1 ha)

/-- A node holds the ghost values of its vertex. -/
structure NodeOk (M inf s : Nat) (D : Nat → Option Nat) (G : Nat → Nat) (Pf : Nat → List Nat) (v : Nat) (x : Node) : Prop where
  l : x.l = (D v).getD inf
  pc : x.pc = G v % M
  preds : x.preds = Pf v
  nodup : x.succs.Nodup
  succs : ∀ w, w ∈ x.succs ↔ v ∈ Pf w
  edgeIn : ∀ w, v ∈ Pf w → x.edge w = ((D v).getD inf, G v % M)
  edgeOut : ∀ w, v ∉ Pf w → (x.edge w).1 = 0 ∨ (v = s ∧ w = s)

/-- All nodes do. -/
def Sim (M inf n s : Nat) (D : Nat → Option Nat) (G : Nat → Nat) (Pf : Nat → List Nat) (vs : List Node) : Prop :=
  ∃ F : Nat → Node, Vec n F vs ∧ ∀ v < n, NodeOk M inf s D G Pf v (F v)

theorem modify_vec {n : Nat} {F : Nat → Node} {vs : List Node} (h : Vec n F vs) {i : Nat} (hi : i < n) (f : Node → Node) :
    ∃ vs', modify vs i f = .ok vs' ∧ Vec n (fun v => if v = i then f (F i) else F v) vs' := by
  obtain ⟨e1, e2⟩ := h.vset hi (f (F i))
  refine ⟨_, ?_, e2⟩
  unfold modify
  rw [h.vget hi, res_bind_ok, e1]

/-- Recording `u` as a predecessor of `w`. -/
theorem record_sim {M inf n s : Nat} {D D' : Nat → Option Nat} {G : Nat → Nat} {Pf : Nat → List Nat} {F : Nat → Node} {vs : List Node} {u w x : Nat}
    (hF : ∀ v < n, NodeOk M inf s D G Pf v (F v)) (hw : w < n) (huw : u ≠ w) (hD : ∀ z, z ≠ w → D' z = D z) (hDw : D' w = some (x + 1)) (hDu : D u = some x)
    (hnot : ∀ y, w ∉ Pf y) (hu : u ∉ Pf w) {X Y : Node} (hXl : X.l = x + 1) (hXpc : X.pc = (G w + G u) % M) (hXp : X.preds = Pf w ++ [u]) (hXs : X.succs = [])
    (hXe : X.edge = (F w).edge) (hYl : Y.l = (F u).l) (hYpc : Y.pc = (F u).pc) (hYp : Y.preds = (F u).preds) (hYs : Y.succs = (F u).succs ++ [w])
    (hYe : Y.edge = fun z => if z = w then ((F u).l, (F u).pc) else (F u).edge z) (hv : Vec n (fun z => if z = u then Y else if z = w then X else F z) vs) :
    Sim M inf n s D' (fun z => if z = w then G w + G u else G z) (fun z => if z = w then Pf w ++ [u] else Pf z) vs := by
  refine ⟨_, hv, fun z hz => ?_⟩
  have hmem : ∀ z y, z ≠ u → (z ∈ (if y = w then Pf w ++ [u] else Pf y) ↔ z ∈ Pf y) := by
    intro z y hz
    split
    · rename_i e; subst e; simp [hz]
    · rfl
  by_cases c : z = u
  · subst c
    have h := hF z hz
    simp only [eq_self_iff_true, if_true]
    have hDz : D' z = D z := hD z huw
    have hl : (F z).l = x := by rw [h.l, hDu]; rfl
    constructor
    · rw [hYl, h.l, hDz]
    · rw [hYpc, h.pc, if_neg huw]
    · rw [hYp, h.preds, if_neg huw]
    · rw [hYs, List.nodup_append]
      refine ⟨h.nodup, by simp, ?_⟩
      rintro a ha b hb rfl
      simp at hb; subst hb
      exact hu ((h.succs _).1 ha)
    · intro y
      rw [hYs, List.mem_append, h.succs]
      by_cases e : y = w
      · subst e; simp
      · simp [e]
    · intro y hy
      rw [hYe, hDz]
      by_cases e : y = w
      · simp only [e, eq_self_iff_true, if_true]
        rw [if_neg huw, h.l, h.pc]
      · simp only [if_neg e] at hy ⊢
        rw [if_neg huw]
        exact h.edgeIn y hy
    · intro y hy
      rw [hYe]
      by_cases e : y = w
      · subst e; simp at hy
      · simp only [if_neg e] at hy ⊢
        exact h.edgeOut y hy
  · simp only [if_neg c]
    by_cases e : z = w
    · subst e
      simp only [eq_self_iff_true, if_true]
      constructor
      · rw [hXl, hDw]; rfl
      · rw [hXpc, if_pos rfl]
      · rw [hXp, if_pos rfl]
      · rw [hXs]; simp
      · intro y
        rw [hXs, hmem z y c]
        simp [hnot y]
      · intro y hy
        exact absurd ((hmem z y c).1 hy) (hnot y)
      · intro y hy
        rw [hXe]
        exact (hF z hz).edgeOut y (hnot y)
    · simp only [if_neg e]
      have h := hF z hz
      constructor
      · rw [h.l, hD z e]
      · rw [h.pc, if_neg e]
      · rw [h.preds, if_neg e]
      · exact h.nodup
      · intro y; rw [h.succs, hmem z y c]
      · intro y hy
        rw [h.edgeIn y ((hmem z y c).1 hy), hD z e, if_neg e]
      · intro y hy
        exact h.edgeOut y fun hh => hy ((hmem z y c).2 hh)

/-- While the edges of `u` are worked on; `pre` are the targets of those that have been. -/
structure Scan (M inf : Nat) (g : Rows α) (s : Nat) (done : List Nat) (u : Nat) (pre Q : List Nat) (D par : Nat → Option Nat) (G : Nat → Nat) (Pf : Nat → List Nat)
    (vs : List Node) : Prop where
  mid : Mid (simple g) s done u pre.eraseDups Q D par
  cnt : Cnt (simple g) s done u pre.eraseDups D G Pf
  tree : ∀ w d, D w = some (d + 1) → Pf w ≠ []
  sim : Sim M inf g.length s D G Pf vs

/-- The edges of a vertex. -/
def edges (g : Rows α) (v : Nat) : List (Nat × Nat) := (nbrs g v).map fun w => (v, w)

theorem row_edges {g : Rows α} {v : Nat} (hv : v < g.length) : (g[v]'hv).map (fun e => (v, e.1)) = edges g v := by
  unfold edges nbrs
  rw [List.getD_eq_getElem?_getD, List.getElem?_eq_getElem hv]
  simp

theorem walk_zero {g : Rows α} {s v : Nat} (h : Walk g s v 0) : v = s := by
  cases h; rfl

theorem insert_of_not_mem {l : List Nat} {x : Nat} (h : x ∉ l) : insert l x = l ++ [x] := if_neg h

theorem Mid.undone {g : Rows α} {s : Nat} {done : List Nat} {u : Nat} {sc q : List Nat} {D par : Nat → Option Nat} (hm : Mid g s done u sc q D par) : u ∉ done := by
  have := hm.nodup
  rw [List.nodup_append] at this
  exact fun hh => this.2.2 u hh u (by simp) rfl

theorem _root_.NW.Brandes.Cnt.mem {g : Rows α} {s : Nat} {done : List Nat} {u : Nat} {sc : List Nat} {D : Nat → Option Nat} {G : Nat → Nat} {Pf : Nat → List Nat} (hc : Cnt g s done u sc D G Pf)
    {v w : Nat} (h : v ∈ Pf w) : isNext D v w = true ∧ (v ∈ done ∨ v = u) := by
  have h1 : 0 < (Pf w).count v := List.count_pos_iff.2 h
  rw [hc.cnt] at h1
  split at h1
  · rename_i hn
    refine ⟨hn, ?_⟩
    split at h1
    · left; assumption
    · split at h1
      · right; assumption
      · omega
  · omega

theorem _root_.NW.Brandes.Cnt.mem_self {g : Rows α} {s : Nat} {done : List Nat} {u : Nat} {sc : List Nat} {D : Nat → Option Nat} {G : Nat → Nat} {Pf : Nat → List Nat} (hc : Cnt g s done u sc D G Pf)
    (hu : u ∉ done) (w : Nat) : u ∈ Pf w ↔ isNext D u w = true ∧ w ∈ sc := by
  rw [← List.count_pos_iff, hc.cnt]
  split
  · rename_i hn
    simp only [hu, if_false, if_true, List.count_pos_iff]
    simp [hn]
  · rename_i hn
    simp [hn]

/-- One item of the work list. -/
theorem work_step (M : Nat) {inf : Nat} {ord : Nat → List Nat → List Nat} (hord : ∀ v l, (ord v l).Perm l) {g : Rows α} (hg : InRange g) (hinf : g.length < inf) {s : Nat} (hs : s < g.length)
    {done : List Nat} {u : Nat} {pre Q : List Nat} {D par : Nat → Option Nat} {G : Nat → Nat} {Pf : Nat → List Nat} {vs : List Node}
    (h : Scan M inf g s done u pre Q D par G Pf vs) {w : Nat} (he : Edge g u w) :
    ∃ vs' new D' par' G' Pf', work M inf ord g vs u w = .ok (vs', new.flatMap (edges g)) ∧ Scan M inf g s done u (pre ++ [w]) (Q ++ new) D' par' G' Pf' vs' := by
  have hwn := hg u w he
  have hun := he.src_lt
  have hg' := simple_inRange hg
  have hs' : s < (simple g).length := by rw [simple_length]; exact hs
  obtain ⟨x, hx⟩ := h.mid.self
  have hxn : x < g.length := by
    have := h.mid.D_lt hg' hs' hx
    rwa [simple_length] at this
  have hud := Mid.undone h.mid
  obtain ⟨F, hv, hF⟩ := h.sim
  have hU := hF u hun
  have hW := hF w hwn
  have hUl : (F u).l = x := by rw [hU.l, hx]; rfl
  unfold work
  rw [hv.vget hwn, res_bind_ok, hv.vget hun, res_bind_ok]
  cases hcw : D w with
  | none =>
    have hWl : (F w).l = inf := by rw [hW.l, hcw]; rfl
    have huw : u ≠ w := by rintro rfl; rw [hx] at hcw; cases hcw
    have hpre : w ∉ pre := by
      intro hh
      obtain ⟨_, y, -, h2, -⟩ := h.mid.here w (List.mem_eraseDups.2 hh)
      rw [hcw] at h2; cases h2
    have hPw : Pf w = [] := by
      rw [List.eq_nil_iff_forall_not_mem]
      intro v hh
      obtain ⟨_, -, h2⟩ := isNext_iff.1 (h.cnt.mem hh).1
      rw [hcw] at h2; cases h2
    have hws : w ≠ s := by rintro rfl; rw [h.mid.root0] at hcw; cases hcw
    have hGw : G w = 0 := by rw [h.cnt.sum, hPw, if_neg hws]; rfl
    have hnot : ∀ y, w ∉ Pf y := by
      intro y hh
      obtain ⟨_, h2, -⟩ := isNext_iff.1 (h.cnt.mem hh).1
      rw [hcw] at h2; cases h2
    have c1 : guardCn inf w (F u) (F w) = false := by
      unfold guardCn
      rw [hWl, hUl]
      simp; intro hh; omega
    have c2 : guardSp (F u) (F w) = true := by
      unfold guardSp
      rw [hWl, hUl]
      simp; omega
    have htmp : ord w (F w).preds = [] := by
      rw [hW.preds, hPw]; exact (hord w []).eq_nil
    obtain ⟨vs1, e1, v1⟩ := modify_vec hv hwn fun y => { y with l := (F u).l + 1, pc := (F u).pc, preds := [], succs := [] }
    obtain ⟨vs2, e2, v2⟩ := modify_vec v1 hun fun y => { y with succs := insert y.succs w }
    obtain ⟨vs3, e3, v3⟩ := modify_vec v2 hwn fun y => { y with preds := insert y.preds u }
    obtain ⟨vs4, e4, v4⟩ := modify_vec v3 hun fun y => { y with edge := fun z => if z = w then (y.l, y.pc) else y.edge z }
    have hap : applySpfu u w vs = .ok vs4 := by
      unfold applySpfu
      rw [hv.vget hun, res_bind_ok, e1, res_bind_ok, e2, res_bind_ok, e3, res_bind_ok, e4]
    simp only [c1, c2, if_true, Bool.false_eq_true, if_false]
    rw [hap, res_bind_ok, vget_of_lt hwn, res_bind_ok, htmp]
    have hu : u ∉ Pf w := by rw [hPw]; simp
    have hsw : w ∉ (F u).succs := fun hh => hu ((hU.succs w).1 hh)
    refine ⟨vs4, [w], upd D w (x + 1), upd par w u, fun z => if z = w then G w + G u else G z, fun z => if z = w then Pf w ++ [u] else Pf z, ?_, ?_, ?_, ?_, ?_⟩
    · rw [row_edges hwn]; simp
    · rw [eraseDups_snoc, if_neg hpre]
      exact h.mid.discover hcw (edge_simple.2 he) hx
    · rw [eraseDups_snoc, if_neg hpre]
      have hmd := h.mid.discover hcw (edge_simple.2 he) hx
      exact (h.cnt.discover h.mid hcw hx).record { hmd with here := fun z hz => hmd.here z (by simp [hz]) } (isNext_iff.2 ⟨x, by simp [upd, huw, hx], by simp [upd]⟩)
    · intro z d hz
      by_cases c : z = w
      · simp [c]
      · simp only [if_neg c]
        exact h.tree z d (by simpa [upd, c] using hz)
    · refine record_sim (X := { l := x + 1, pc := (F u).pc, preds := [u], succs := [], edge := (F w).edge })
        (Y := { (F u) with succs := (F u).succs ++ [w], edge := fun z => if z = w then ((F u).l, (F u).pc) else (F u).edge z }) hF hwn huw (fun z hz => by simp [upd, hz]) (by simp [upd]) hx hnot hu rfl
        (by simp [hU.pc, hGw]) (by simp [hPw]) rfl rfl rfl rfl rfl rfl rfl ?_
      refine v4.congr fun z _ => ?_
      by_cases c : z = u
      · subst c
        simp [huw, insert_of_not_mem hsw]
      · by_cases c' : z = w
        · subst c'
          simp [c, hUl, insert]
        · simp [c, c']
  | some y =>
    have hWl : (F w).l = y := by rw [hW.l, hcw]; rfl
    have hyx : y ≤ x + 1 := h.mid.near w ((h.mid.disc w).2 ⟨y, hcw⟩) y x hcw hx
    have c2 : guardSp (F u) (F w) = false := by
      unfold guardSp
      rw [hWl, hUl]
      simp; omega
    have hmid : Mid (simple g) s done u (pre ++ [w]).eraseDups Q D par := by
      rw [eraseDups_snoc]
      split
      · exact h.mid
      · exact h.mid.seen hcw
    by_cases hy : y = x + 1
    · subst hy
      have huw : u ≠ w := by rintro rfl; rw [hx] at hcw; cases hcw
      have hn : isNext D u w = true := isNext_iff.2 ⟨x, hx, hcw⟩
      have c1 : guardCn inf w (F u) (F w) = false := by
        unfold guardCn
        rw [hWl, hUl]
        simp
      by_cases hpre : w ∈ pre
      · have hu : u ∈ Pf w := (h.cnt.mem_self hud w).2 ⟨hn, List.mem_eraseDups.2 hpre⟩
        have hed := hU.edgeIn w hu
        have c3 : guardFu w (F u) (F w) = false := by
          unfold guardFu; rw [hed, hU.l]; simp
        have c4 : guardUs w (F u) (F w) = false := by
          unfold guardUs; rw [hed, hU.pc]; simp
        simp only [c1, c2, c3, c4, Bool.false_eq_true, if_false]
        refine ⟨vs, [], D, par, G, Pf, by simp, by rw [List.append_nil]; exact hmid, ?_, h.tree, h.sim⟩
        rw [eraseDups_snoc, if_pos hpre]; exact h.cnt
      · have hu : u ∉ Pf w := fun hh => hpre (List.mem_eraseDups.1 ((h.cnt.mem_self hud w).1 hh).2)
        have hwd : w ∉ done := by
          intro hh
          have := (List.pairwise_append.1 h.mid.mono).2.2 w hh u (by simp) (x + 1) x hcw hx
          omega
        have hnot : ∀ y, w ∉ Pf y := by
          intro y hh
          rcases (h.cnt.mem hh).2 with h2 | h2
          · exact hwd h2
          · exact huw h2.symm
        have hsu : (F w).succs = [] := by
          rw [List.eq_nil_iff_forall_not_mem]
          intro z hz
          exact hnot z ((hW.succs z).1 hz)
        have hx0 : x ≠ 0 := by
          rintro rfl
          obtain ⟨p, hp⟩ := List.exists_mem_of_ne_nil _ (h.tree w 0 hcw)
          obtain ⟨a, b1, b2⟩ := isNext_iff.1 (h.cnt.mem hp).1
          rw [hcw] at b2
          have ha : a = 0 := by injection b2 with b2; omega
          subst ha
          have e1 := walk_zero (h.mid.walk p 0 b1)
          have e2 := walk_zero (h.mid.walk u 0 hx)
          exact hu (by rw [e2, ← e1]; exact hp)
        have hed : ((F u).edge w).1 = 0 := by
          rcases hU.edgeOut w hu with e | ⟨e1, e2⟩
          · exact e
          · exact absurd (e1.trans e2.symm) huw
        have c3 : guardFu w (F u) (F w) = true := by
          unfold guardFu; rw [hed, hWl, hUl]; simp; omega
        obtain ⟨vs1, e1, v1⟩ := modify_vec hv hwn fun y => { y with pc := (y.pc + (F u).pc) % M }
        obtain ⟨vs2, e2, v2⟩ := modify_vec v1 hun fun y => { y with succs := insert y.succs w }
        obtain ⟨vs3, e3, v3⟩ := modify_vec v2 hwn fun y => { y with preds := insert y.preds u }
        obtain ⟨vs4, e4, v4⟩ := modify_vec v3 hun fun y => { y with edge := fun z => if z = w then (y.l, y.pc) else y.edge z }
        have hap : applyFu M u w vs = .ok vs4 := by
          unfold applyFu
          rw [hv.vget hun, res_bind_ok, e1, res_bind_ok, e2, res_bind_ok, e3, res_bind_ok, e4]
        have hsw : w ∉ (F u).succs := fun hh => hu ((hU.succs w).1 hh)
        have hpw : u ∉ (F w).preds := by rw [hW.preds]; exact hu
        have v5 : Vec g.length (fun z => if z = u then { (F u) with succs := (F u).succs ++ [w], edge := fun z => if z = w then ((F u).l, (F u).pc) else (F u).edge z } else
            if z = w then { (F w) with pc := ((F w).pc + (F u).pc) % M, preds := (F w).preds ++ [u] } else F z) vs4 := by
          refine v4.congr fun z _ => ?_
          by_cases c : z = u
          · subst c
            simp [huw, insert_of_not_mem hsw]
          · by_cases c' : z = w
            · subst c'
              simp [c, insert_of_not_mem hpw]
            · simp [c, c']
        simp only [c1, c2, c3, if_true, Bool.false_eq_true, if_false]
        rw [hap, res_bind_ok, v5.vget hwn, res_bind_ok]
        simp only [if_neg (fun e : w = u => huw e.symm), if_true, hsu, List.isEmpty_nil]
        refine ⟨vs4, [], D, par, fun z => if z = w then G w + G u else G z, fun z => if z = w then Pf w ++ [u] else Pf z, by simp, by rw [List.append_nil]; exact hmid, ?_, ?_, ?_⟩
        · rw [eraseDups_snoc, if_neg hpre]
          exact h.cnt.record h.mid hn
        · intro z d hz
          by_cases c : z = w
          · simp [c]
          · simp only [if_neg c]
            exact h.tree z d hz
        · refine record_sim (X := { (F w) with pc := ((F w).pc + (F u).pc) % M, preds := (F w).preds ++ [u] })
            (Y := { (F u) with succs := (F u).succs ++ [w], edge := fun z => if z = w then ((F u).l, (F u).pc) else (F u).edge z }) hF hwn huw (fun _ _ => rfl) hcw hx hnot hu ?_ ?_ ?_ ?_ rfl rfl rfl rfl rfl rfl v5
          · exact hWl
          · show ((F w).pc + (F u).pc) % M = _
            rw [hW.pc, hU.pc, ← Nat.add_mod]
          · show (F w).preds ++ [u] = _
            rw [hW.preds]
          · exact hsu
    · have hn : isNext D u w = false := by
        cases hb : isNext D u w with
        | false => rfl
        | true =>
          obtain ⟨a, b1, b2⟩ := isNext_iff.1 hb
          rw [hx] at b1; cases b1
          rw [hcw] at b2; injection b2 with b2
          exact absurd b2 hy
      have hu : u ∉ Pf w := fun hh => by
        have := (h.cnt.mem hh).1
        rw [hn] at this; cases this
      have hcnt : Cnt (simple g) s done u (pre ++ [w]).eraseDups D G Pf := by
        rw [eraseDups_snoc]
        split
        · exact h.cnt
        · exact h.cnt.skip hn
      have hsw : w ∉ (F u).succs := fun hh => hu ((hU.succs w).1 hh)
      cases c1 : guardCn inf w (F u) (F w) with
      | true =>
        simp only [if_true]
        obtain ⟨vs1, e1, v1⟩ := modify_vec hv hun fun y => { y with succs := y.succs.erase w, edge := fun z => if z = w then (inf, (y.edge w).2) else y.edge z }
        unfold applyCn
        rw [e1, res_bind_ok]
        refine ⟨vs1, [], D, par, G, Pf, by simp, by rw [List.append_nil]; exact hmid, hcnt, h.tree, _, v1, ?_⟩
        intro z hz
        by_cases c : z = u
        · subst c
          simp only [eq_self_iff_true, if_true]
          have hc := c1
          unfold guardCn at hc
          rw [hUl, hWl] at hc
          simp only [Bool.and_eq_true, decide_eq_true_eq] at hc
          have hss : z = s ∧ w = s := by
            rcases hU.edgeOut w hu with e | e
            · have hx0 : x = 0 := by rw [← hc.1.2, e]
              have hy0 : y = 0 := by have := hc.1.1; omega
              rw [hx0] at hx; rw [hy0] at hcw
              exact ⟨walk_zero (h.mid.walk z 0 hx), walk_zero (h.mid.walk w 0 hcw)⟩
            · exact e
          constructor
          · exact hU.l
          · exact hU.pc
          · exact hU.preds
          · show ((F z).succs.erase w).Nodup
            rw [List.erase_of_not_mem hsw]; exact hU.nodup
          · intro a
            show a ∈ (F z).succs.erase w ↔ _
            rw [List.erase_of_not_mem hsw]; exact hU.succs a
          · intro a ha
            have : a ≠ w := by rintro rfl; exact hu ha
            show (if a = w then _ else (F z).edge a) = _
            rw [if_neg this]; exact hU.edgeIn a ha
          · intro a ha
            by_cases e : a = w
            · right; exact ⟨hss.1, e.trans hss.2⟩
            · show (if a = w then _ else (F z).edge a).1 = 0 ∨ _
              rw [if_neg e]; exact hU.edgeOut a ha
        · simp only [if_neg c]
          exact hF z hz
      | false =>
        have c3 : guardFu w (F u) (F w) = false := by
          unfold guardFu; rw [hWl, hUl]; simp; intro e; exact absurd e hy
        have c4 : guardUs w (F u) (F w) = false := by
          unfold guardUs; rw [hWl, hUl]; simp; intro _ e; exact absurd e hy
        simp only [c2, c3, c4, Bool.false_eq_true, if_false]
        exact ⟨vs, [], D, par, G, Pf, by simp, by rw [List.append_nil]; exact hmid, hcnt, h.tree, h.sim⟩

/-- The remaining edges of `u`. -/
theorem scan_row (M : Nat) {inf : Nat} {ord : Nat → List Nat → List Nat} (hord : ∀ v l, (ord v l).Perm l) {g : Rows α} (hg : InRange g) (hinf : g.length < inf) {s : Nat} (hs : s < g.length)
    {done : List Nat} {u : Nat} (rem : List Nat) : ∀ {pre Q : List Nat} {D par : Nat → Option Nat} {G : Nat → Nat} {Pf : Nat → List Nat} {vs : List Node}
    (_ : Scan M inf g s done u pre Q D par G Pf vs) (_ : pre ++ rem = nbrs g u),
    ∃ vs' Q' D' par' G' Pf', Scan M inf g s done u (nbrs g u) Q' D' par' G' Pf' vs' ∧
      ∀ o, Loop (body M inf ord g) (vs', Q'.flatMap (edges g)) o → Loop (body M inf ord g) (vs, rem.map (fun w => (u, w)) ++ Q.flatMap (edges g)) o := by
  induction rem with
  | nil =>
    intro pre Q D par G Pf vs h hl
    rw [List.append_nil] at hl
    subst hl
    exact ⟨vs, Q, D, par, G, Pf, h, fun o ho => ho⟩
  | cons w rem ih =>
    intro pre Q D par G Pf vs h hl
    obtain ⟨vs1, new, D1, par1, G1, Pf1, e1, h1⟩ := work_step M hord hg hinf hs h (w := w) (by rw [Edge, ← hl]; simp)
    obtain ⟨vs2, Q2, D2, par2, G2, Pf2, h2, h3⟩ := ih h1 (by rw [← hl]; simp)
    refine ⟨vs2, Q2, D2, par2, G2, Pf2, h2, fun o ho => ?_⟩
    refine Loop.step (s' := (vs1, (rem.map (fun w => (u, w)) ++ Q.flatMap (edges g)) ++ new.flatMap (edges g))) ?_ ?_
    · unfold body
      simp only [List.map_cons, List.cons_append]
      rw [e1, res_bind_ok]; rfl
    · have := h3 o ho
      rw [List.flatMap_append, ← List.append_assoc] at this
      exact this

/-- What the search leaves behind. -/
structure Searched (M inf : Nat) (g : Rows α) (s : Nat) (done : List Nat) (D par : Nat → Option Nat) (G : Nat → Nat) (Pf : Nat → List Nat) (vs : List Node) : Prop where
  inv : Inv (simple g) s done [] D par
  cnt : CntI (simple g) s done D G Pf
  sim : Sim M inf g.length s D G Pf vs

theorem search_loop (M : Nat) {inf : Nat} {ord : Nat → List Nat → List Nat} (hord : ∀ v l, (ord v l).Perm l) {g : Rows α} (hg : InRange g) (hinf : g.length < inf) {s : Nat} (hs : s < g.length)
    (k : Nat) : ∀ {done Q : List Nat} {D par : Nat → Option Nat} {G : Nat → Nat} {Pf : Nat → List Nat} {vs : List Node} (_ : Inv (simple g) s done Q D par)
    (_ : CntI (simple g) s done D G Pf) (_ : ∀ w d, D w = some (d + 1) → Pf w ≠ []) (_ : Sim M inf g.length s D G Pf vs) (_ : g.length - done.length ≤ k),
    ∃ vs' done' D' par' G' Pf', Loop (body M inf ord g) (vs, Q.flatMap (edges g)) (.ok vs') ∧ Searched M inf g s done' D' par' G' Pf' vs' := by
  have hg' := simple_inRange hg
  have hs' : s < (simple g).length := by rw [simple_length]; exact hs
  induction k with
  | zero =>
    intro done Q D par G Pf vs hi hc _ hsim hk
    have := hi.length_le hg' hs'
    rw [simple_length, List.length_append] at this
    have hQ : Q = [] := List.eq_nil_of_length_eq_zero (by omega)
    subst hQ
    exact ⟨vs, done, D, par, G, Pf, .done rfl, hi, hc, hsim⟩
  | succ k ih =>
    intro done Q D par G Pf vs hi hc ht hsim hk
    cases Q with
    | nil => exact ⟨vs, done, D, par, G, Pf, .done rfl, hi, hc, hsim⟩
    | cons u Q =>
      have h0 : Scan M inf g s done u [] Q D par G Pf vs := ⟨by simpa using hi.start, by simpa using hc.start u, ht, hsim⟩
      obtain ⟨vs1, Q1, D1, par1, G1, Pf1, h1, h2⟩ := scan_row M hord hg hinf hs (nbrs g u) h0 rfl
      have hm := h1.mid
      have hcn := h1.cnt
      rw [← nbrs_simple] at hm hcn
      have hlen := hi.length_le hg' hs'
      rw [simple_length, List.length_append, List.length_cons] at hlen
      obtain ⟨vs2, done2, D2, par2, G2, Pf2, h3, h4⟩ := ih hm.finish (hcn.finish (Mid.undone hm)) h1.tree h1.sim (by
        rw [List.length_append, List.length_singleton]; omega)
      exact ⟨vs2, done2, D2, par2, G2, Pf2, h2 _ h3, h4⟩

theorem search_gives (M : Nat) {inf : Nat} {ord : Nat → List Nat → List Nat} (hord : ∀ v l, (ord v l).Perm l) {g : Rows α} (hg : InRange g) (hinf : g.length < inf) {s : Nat} (hs : s < g.length)
    {vs : List Node} (h : init M inf g.length s = .ok vs) :
    Run.Gives (Run.loop (body M inf ord g) (vs, (g[s]'hs).map fun e => (s, e.1))) fun vs' => ∃ done D par G Pf, Searched M inf g s done D par G Pf vs' := by
  have hsim : Sim M inf g.length s (upd (fun _ => none) s 0) (fun v => if v = s then 1 else 0) (fun _ => []) vs := by
    obtain ⟨vs1, e1, v1⟩ := modify_vec (Vec.replicate g.length { l := inf, pc := 0, preds := [], succs := [], edge := fun _ => (0, 0) }) hs fun x => { x with l := 0, pc := 1 % M }
    have : vs1 = vs := by
      unfold init at h
      rw [e1] at h; cases h; rfl
    subst this
    refine ⟨_, v1, fun v _ => ?_⟩
    by_cases c : v = s
    · subst c
      constructor <;> simp [upd]
    · constructor <;> simp [c, upd]
  obtain ⟨vs', done, D, par, G, Pf, h1, h2⟩ := search_loop M hord hg hinf hs (g.length - 0) (Inv.init (simple g) s) ⟨fun v w => by simp, fun w => by simp⟩ (by
    intro w d hw
    by_cases c : w = s
    · subst c; simp [upd] at hw
    · simp [upd, c] at hw) hsim (Nat.le_refl _)
  have h1 : Loop (body M inf ord g) (vs, (g[s]'hs).map fun e => (s, e.1)) (.ok vs') := by
    rw [row_edges hs]; simpa using h1
  refine ⟨⟨_, h1⟩, fun o ho => ⟨vs', Loop.det ho h1, done, D, par, G, Pf, h2⟩⟩

end NW.BcWork
