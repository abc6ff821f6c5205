import Verif.Model.BcExpPar
import Verif.Lemmas.BrandesBack

/-! # Lemmas: the forward rounds of `bc2_v3` and `bc2_v4` -/

namespace NW.BcExpPar
open Spec
open NW.Brandes (Vec isNext isNext_iff)
open NW.BrandesPar (Args Mem BTask BOk B Rec Layer Layers Pre Fwd D_lt D_bound D_next nsum_map_set bits bits_true bits_false count_take_succ count_flatten_set sum_layer newB mkB_ok mkB bTask bTask_ok Adds)

variable {α : Type}

def XPc.isPush : XPc → Bool
  | .push => true
  | _ => false

/-- The level of `v` is known to be set. -/
def XPc.knows : XPc → Bool
  | .read => false
  | .cas => false
  | _ => true

/-- `v` is known to be on the next level. -/
def XPc.isNew : XPc → Bool
  | .read => false
  | .check => false
  | _ => true

/-- The number of neighbours whose count has been raised (or who need not be counted). -/
def XTask.added (t : XTask) : Nat :=
  match t.pc with
  | .mark => t.pos + 1
  | _ => t.pos

/-- The number of neighbours whose bit has been set (or need not be set). -/
def XTask.marked (t : XTask) : Nat := t.pos

def XPc.rank : XPc → Nat
  | .read => 6
  | .cas => 5
  | .push => 4
  | .check => 3
  | .load => 2
  | .add _ => 1
  | .mark => 0

/-- The steps left, at most. -/
def XTask.weight (t : XTask) : Nat := 7 * (t.row.length - t.pos) + t.pc.rank

/-- 1 if the task is about to enqueue `v`. -/
def pend (v : Nat) (t : XTask) : Nat := if t.pc.isPush ∧ t.row[t.pos]? = some v then 1 else 0

/-- What the task has added to the count of `v`. -/
def contrib (g : Rows α) (s k v : Nat) (t : XTask) : Nat := (t.row.take t.added).count v * nw g k s t.u

structure TOk (c : Args α) (s : Nat) (D : Nat → Option Nat) (k : Nat) (L : Nat → Nat) (t : XTask) : Prop where
  row : t.row = nbrs c.g t.u
  pos : t.pos ≤ t.row.length
  cur : t.pc.isNew = true → ∃ v, t.row[t.pos]? = some v ∧ D v = some (k + 1)
  seen : ∀ j < t.pos, ∀ v, t.row[j]? = some v → D v = some (k + 1) → L v = k + 1
  known : t.pc.knows = true → ∀ v, t.row[t.pos]? = some v → D v = some (k + 1) → L v = k + 1
  val : ∀ x, t.pc = .add x → x = nw c.g k s t.u % c.M

/-- The state in the forward round from level `k`. -/
structure F (c : Args α) (s : Nat) (D : Nat → Option Nat) (k : Nat) (L G : Nat → Nat) (S : Nat → List Bool) (ts : List XTask) (q2 : List (List Nat)) (m : Mem) :
    Prop where
  len : q2.length = c.bins
  us : (ts.map XTask.u).Nodup
  mem : ∀ v, v ∈ ts.map XTask.u ↔ D v = some k
  lv : Vec c.g.length L m.levels
  old : ∀ v j, D v = some j → j ≤ k → L v = j
  fresh : ∀ v < c.g.length, (∀ j, D v = some j → k < j) → L v = c.inf ∨ (L v = k + 1 ∧ D v = some (k + 1))
  que : ∀ v, q2.flatten.count v + (ts.map (pend v)).sum = if v < c.g.length ∧ L v = k + 1 then 1 else 0
  cnt : Vec c.g.length (fun v => G v % c.M) m.pc
  gold : ∀ v j, D v = some j → j ≤ k → G v = nw c.g j s v
  gnew : ∀ v, D v = some (k + 1) → G v = (ts.map (contrib c.g s k v)).sum
  gfar : ∀ v, (∀ j, D v = some j → k + 1 < j) → G v = 0
  sc : Vec c.g.length S m.succ
  sold : ∀ u j, D u = some j → j < k → S u = (nbrs c.g u).map (isNext D u)
  scur : ∀ t ∈ ts, S t.u = bits D t.u t.row t.marked
  sfar : ∀ u < c.g.length, (∀ j, D u = some j → k < j) → S u = List.replicate (nbrs c.g u).length false
  tk : ∀ t ∈ ts, TOk c s D k L t

variable {c : Args α} {s : Nat} {D : Nat → Option Nat}

theorem TOk.mono {k : Nat} {L L' : Nat → Nat} {t : XTask} (h : TOk c s D k L t) (hL : ∀ w, L w = k + 1 → L' w = k + 1) : TOk c s D k L' t :=
  { h with seen := fun j hj v hv hd => hL _ (h.seen j hj v hv hd), known := fun hk v hv hd => hL _ (h.known hk v hv hd) }

theorem TOk.next {k : Nat} {L : Nat → Nat} {t : XTask} (h : TOk c s D k L t) (hf : t.pos < t.row.length) {v : Nat} (hv : t.row[t.pos]? = some v)
    (hd : D v = some (k + 1) → L v = k + 1) : TOk c s D k L t.next where
  row := h.row
  pos := hf
  cur := fun hne => by cases hne
  seen := by
    intro j hj w hw hDw
    rcases Nat.lt_succ_iff_lt_or_eq.1 hj with hlt | rfl
    · exact h.seen j hlt w hw hDw
    · have : some w = some v := hw.symm.trans hv
      cases this; exact hd hDw
  known := fun hk => by cases hk
  val := fun x hx => by cases hx

section step
variable {k : Nat} {L G : Nat → Nat} {S : Nat → List Bool} {ts : List XTask} {q2 : List (List Nat)} {m : Mem}

/-- The tasks after one has moved. -/
theorem F.cases (h : F c s D k L G S ts q2 m) {i : Nat} {t t' : XTask} (hi : ts[i]? = some t) : ∀ x ∈ ts.set i t', x = t' ∨ (x ∈ ts ∧ x.u ≠ t.u) := by
  intro x hx
  obtain ⟨j, hj⟩ := List.getElem?_of_mem hx
  rcases getElem?_set_cases hj with ⟨rfl, rfl⟩ | ⟨hne, hj'⟩
  · exact Or.inl rfl
  · refine Or.inr ⟨List.mem_of_getElem? hj', fun e => hne ?_⟩
    have h1 : (ts.map XTask.u)[i]? = some t.u := by simp [hi]
    have h2 : (ts.map XTask.u)[j]? = some t.u := by simp [hj', e]
    obtain ⟨l1, e1⟩ := List.getElem?_eq_some_iff.1 h1
    obtain ⟨l2, e2⟩ := List.getElem?_eq_some_iff.1 h2
    exact (h.us.getElem_inj_iff (hi := l1) (hj := l2)).1 (e1.trans e2.symm)

theorem map_u_set {i : Nat} {t t' : XTask} (hi : ts[i]? = some t) (hu : t'.u = t.u) : (ts.set i t').map XTask.u = ts.map XTask.u := by
  rw [List.map_set, hu]
  apply List.ext_getElem? fun j => ?_
  rw [List.getElem?_set]
  split
  · rename_i e; subst e
    split
    · simp [hi]
    · rename_i h1; rw [List.getElem?_eq_none (by simpa using h1)]
  · rfl

/-- When a task moves.  The hypotheses say how the arrays change with it. -/
theorem F.move (h : F c s D k L G S ts q2 m) {i : Nat} {t t' : XTask} (hi : ts[i]? = some t) (hu : t'.u = t.u) {L' G' : Nat → Nat} {S' : Nat → List Bool}
    {q2' : List (List Nat)} {m' : Mem} (hlen : q2'.length = q2.length) (hlv : Vec c.g.length L' m'.levels) (hcnt : Vec c.g.length (fun v => G' v % c.M) m'.pc)
    (hsc : Vec c.g.length S' m'.succ) (hL : ∀ w, L' w = L w ∨ (L w = c.inf ∧ L' w = k + 1 ∧ D w = some (k + 1)))
    (hq : ∀ v, q2'.flatten.count v + pend v t' + (if v < c.g.length ∧ L v = k + 1 then 1 else 0) =
      q2.flatten.count v + pend v t + if v < c.g.length ∧ L' v = k + 1 then 1 else 0)
    (hG : ∀ v, D v ≠ some (k + 1) → G' v = G v)
    (hc : ∀ v, D v = some (k + 1) → G' v + contrib c.g s k v t = G v + contrib c.g s k v t')
    (hS : ∀ u, u ≠ t.u → S' u = S u) (hSt : S' t.u = bits D t'.u t'.row t'.marked) (hinf : k + 1 < c.inf)
    (hok : TOk c s D k L' t') : F c s D k L' G' S' (ts.set i t') q2' m' := by
  have hmap := map_u_set hi hu
  have ht : t ∈ ts := List.mem_of_getElem? hi
  have htk : D t.u = some k := (h.mem t.u).1 (List.mem_map_of_mem ht)
  have hmono : ∀ w, L w = k + 1 → L' w = k + 1 := by
    intro w hw
    rcases hL w with e | ⟨e, -, -⟩
    · rw [e, hw]
    · omega
  refine ⟨hlen.trans h.len, by rw [hmap]; exact h.us, fun v => by rw [hmap]; exact h.mem v, hlv, ?_, ?_, ?_, hcnt, ?_, ?_, ?_, hsc, ?_, ?_, ?_, ?_⟩
  · intro v j hv hj
    rcases hL v with e | ⟨-, -, e⟩
    · rw [e]; exact h.old v j hv hj
    · rw [hv] at e; cases e; omega
  · intro v hvn hv
    rcases hL v with e | ⟨-, e1, e2⟩
    · rw [e]; exact h.fresh v hvn hv
    · exact Or.inr ⟨e1, e2⟩
  · intro v
    have h1 := nsum_map_set (pend v) (y := t') hi
    have h2 := h.que v
    have h3 := hq v
    omega
  · intro v j hv hj
    rw [hG v (by rw [hv]; simp; omega)]; exact h.gold v j hv hj
  · intro v hv
    have h1 := nsum_map_set (contrib c.g s k v) (y := t') hi
    have h2 := h.gnew v hv
    have h3 := hc v hv
    omega
  · intro v hv
    rw [hG v fun e => by have := hv _ e; omega]; exact h.gfar v hv
  · intro u j hj hlt
    rw [hS u (by rintro rfl; rw [hj] at htk; cases htk; omega)]; exact h.sold u j hj hlt
  · intro x hx
    rcases h.cases hi x hx with rfl | ⟨hx', hne⟩
    · rw [← hSt, hu]
    · rw [hS _ hne]; exact h.scur x hx'
  · intro u hun hu'
    rw [hS u (by rintro rfl; have := hu' _ htk; omega)]; exact h.sfar u hun hu'
  · intro x hx
    rcases h.cases hi x hx with rfl | ⟨hx', -⟩
    · exact hok
    · exact (h.tk x hx').mono hmono

theorem xTask_ok (hg : InRange c.g) (hs : s < c.g.length) (hD : ∀ v d, D v = some d ↔ IsDist c.g s v d) (hb : 0 < c.bins) (hinf : k + 1 < c.inf)
    (h : F c s D k L G S ts q2 m) {i : Nat} {t : XTask} (hi : ts[i]? = some t) (hf : ¬ t.finished) :
    ∃ q2' m' t' L' G' S', xTask c (k + 1) q2 m t = .ok (q2', m', t') ∧ F c s D k L' G' S' (ts.set i t') q2' m' ∧ t'.weight < t.weight := by
  have ht : t ∈ ts := List.mem_of_getElem? hi
  have hu : D t.u = some k := (h.mem t.u).1 (List.mem_map_of_mem ht)
  have hun : t.u < c.g.length := D_lt hg hs hD hu
  have hok := h.tk t ht
  have hp : t.pos < t.row.length := by unfold XTask.finished at hf; omega
  obtain ⟨v, hv⟩ : ∃ v, t.row[t.pos]? = some v := ⟨_, List.getElem?_eq_getElem hp⟩
  have hvm : v ∈ nbrs c.g t.u := by rw [← hok.row]; exact List.mem_of_getElem? hv
  obtain ⟨j, hDv, hj⟩ := D_next hD hu hvm
  have hvn : v < c.g.length := D_lt hg hs hD hDv
  have hnext : isNext D t.u v = decide (j = k + 1) := by
    rw [Bool.eq_iff_iff, isNext_iff, hDv, hu]; simp
  have hLv : j ≤ k → L v = j := fun hjk => h.old v j hDv hjk
  have hLn : j = k + 1 → L v = c.inf ∨ L v = k + 1 := fun e => by
    rcases h.fresh v hvn (by intro j' hj'; rw [hDv] at hj'; cases hj'; omega) with e | e
    · exact Or.inl e
    · exact Or.inr e.1
  have hcur := hok.cur
  have hsc := h.scur t ht
  have hknown := hok.known
  have hval := hok.val
  obtain ⟨u, row, pos, pc⟩ := t
  simp only at hv hp hu hun hvm hnext hsc hcur hknown hval
  unfold xTask
  rw [vget_eq_ok.2 hv, res_bind_ok]
  cases pc with
  | read =>
    dsimp only
    rw [h.lv.vget hvn, res_bind_ok]
    by_cases hcond : L v = c.inf
    · have hjk : j = k + 1 := by
        rcases Nat.lt_or_ge k j with hl | hl
        · omega
        · have := hLv hl; omega
      rw [if_pos hcond]
      refine ⟨_, _, _, L, G, S, rfl, h.move hi (by rfl) (by rfl) h.lv h.cnt h.sc (fun w => Or.inl rfl) ?_ (fun _ _ => rfl) (fun _ _ => rfl) (fun _ _ => rfl) hsc hinf ?_, ?_⟩
      · intro w; simp [pend, XPc.isPush]
      · exact ⟨hok.row, hok.pos, fun _ => ⟨v, hv, hjk ▸ hDv⟩, hok.seen, fun hk => (by cases hk), fun x hx => (by cases hx)⟩
      · simp [XTask.weight, XPc.rank]
    · rw [if_neg hcond]
      refine ⟨_, _, _, L, G, S, rfl, h.move hi (by rfl) (by rfl) h.lv h.cnt h.sc (fun w => Or.inl rfl) ?_ (fun _ _ => rfl) (fun _ _ => rfl) (fun _ _ => rfl) hsc hinf ?_, ?_⟩
      · intro w; simp [pend, XPc.isPush]
      · refine ⟨hok.row, hok.pos, fun hk => (by cases hk), hok.seen, ?_, fun x hx => (by cases hx)⟩
        intro _ w hw hDw
        have : some v = some w := hv.symm.trans hw
        cases this
        rw [hDv] at hDw; cases hDw
        exact (hLn rfl).resolve_left hcond
      · simp [XTask.weight, XPc.rank]
  | cas =>
    obtain ⟨v', hv', hDv'⟩ := hcur rfl
    have : some v = some v' := hv.symm.trans hv'
    cases this
    have hjk : j = k + 1 := by rw [hDv] at hDv'; cases hDv'; rfl
    dsimp only
    rw [h.lv.vget hvn, res_bind_ok]
    by_cases hcond : L v = c.inf
    · rw [if_pos hcond]
      obtain ⟨e1, e2⟩ := h.lv.vset hvn (k + 1)
      rw [e1, res_bind_ok]
      have hL' : ∀ w, (fun w => if w = v then k + 1 else L w) w = L w ∨ (L w = c.inf ∧ (fun w => if w = v then k + 1 else L w) w = k + 1 ∧ D w = some (k + 1)) := by
        intro w
        by_cases e : w = v
        · subst e; exact Or.inr ⟨hcond, if_pos rfl, hDv'⟩
        · exact Or.inl (if_neg e)
      refine ⟨_, _, _, fun w => if w = v then k + 1 else L w, G, S, rfl, h.move hi (by rfl) (by rfl) e2 h.cnt h.sc hL' ?_ (fun _ _ => rfl)
        (fun _ _ => rfl) (fun _ _ => rfl) hsc hinf ?_, ?_⟩
      · intro w
        by_cases e : w = v
        · subst e
          have : ¬ (w < c.g.length ∧ L w = k + 1) := by omega
          rw [if_neg this]
          simp [pend, XPc.isPush, hv, hvn]
        · have : ¬ (v = w) := fun e' => e e'.symm
          simp [pend, XPc.isPush, hv, e, this]
      · refine ⟨hok.row, hok.pos, fun _ => ⟨v, hv, hDv'⟩, ?_, ?_, fun x hx => (by cases hx)⟩
        · intro a ha w hw hDw
          show (if w = v then k + 1 else L w) = k + 1
          split
          · rfl
          · exact hok.seen a ha w hw hDw
        · intro _ w hw _
          have : some v = some w := hv.symm.trans hw
          cases this
          exact if_pos rfl
      · simp [XTask.weight, XPc.rank]
    · rw [if_neg hcond]
      refine ⟨_, _, _, L, G, S, rfl, h.move hi (by rfl) (by rfl) h.lv h.cnt h.sc (fun w => Or.inl rfl) ?_ (fun _ _ => rfl) (fun _ _ => rfl) (fun _ _ => rfl) hsc hinf ?_, ?_⟩
      · intro w; simp [pend, XPc.isPush]
      · refine ⟨hok.row, hok.pos, fun hk => (by cases hk), hok.seen, ?_, fun x hx => (by cases hx)⟩
        intro _ w hw hDw
        have : some v = some w := hv.symm.trans hw
        cases this
        exact (hLn hjk).resolve_left hcond
      · simp [XTask.weight, XPc.rank]
  | push =>
    obtain ⟨v', hv', hDv'⟩ := hcur rfl
    have : some v = some v' := hv.symm.trans hv'
    cases this
    dsimp only
    have hbin : u % c.bins < q2.length := by rw [h.len]; exact Nat.mod_lt _ hb
    have hbe : q2[u % c.bins]? = some q2[u % c.bins] := List.getElem?_eq_getElem hbin
    rw [vget_of_lt hbin, res_bind_ok, vset_of_lt hbin, res_bind_ok]
    refine ⟨_, _, _, L, G, S, rfl, h.move hi (by rfl) (by simp) h.lv h.cnt h.sc (fun w => Or.inl rfl) ?_ (fun _ _ => rfl) (fun _ _ => rfl) (fun _ _ => rfl) hsc hinf ?_, ?_⟩
    · intro w
      rw [count_flatten_set hbe]
      by_cases e : w = v
      · subst e; simp [pend, XPc.isPush, hv]
      · have : ¬ (v = w) := fun e' => e e'.symm
        simp [pend, XPc.isPush, hv, e, this]
    · exact ⟨hok.row, hok.pos, fun hk => (by cases hk), hok.seen, fun _ => hknown rfl, fun x hx => (by cases hx)⟩
    · simp [XTask.weight, XPc.rank]
  | check =>
    dsimp only
    rw [h.lv.vget hvn, res_bind_ok]
    by_cases hcond : L v = k + 1
    · rw [if_pos hcond]
      have hjk : j = k + 1 := by
        rcases Nat.lt_or_ge k j with hl | hl
        · omega
        · have := hLv hl; omega
      refine ⟨_, _, _, L, G, S, rfl, h.move hi (by rfl) (by rfl) h.lv h.cnt h.sc (fun w => Or.inl rfl) ?_ (fun _ _ => rfl) (fun _ _ => rfl) (fun _ _ => rfl) hsc hinf ?_, ?_⟩
      · intro w; simp [pend, XPc.isPush]
      · exact ⟨hok.row, hok.pos, fun _ => ⟨v, hv, hjk ▸ hDv⟩, hok.seen, fun _ => hknown rfl, fun x hx => (by cases hx)⟩
      · simp [XTask.weight, XPc.rank]
    · rw [if_neg hcond]
      have hjk : j ≤ k := by
        rcases Nat.lt_or_ge k j with hl | hl
        · obtain rfl : j = k + 1 := by omega
          exact absurd (hknown rfl v hv hDv) hcond
        · exact hl
      have hnf : isNext D u v = false := by rw [hnext]; simp; omega
      refine ⟨_, _, _, L, G, S, rfl, h.move hi (by rfl) (by rfl) h.lv h.cnt h.sc (fun w => Or.inl rfl) ?_ (fun _ _ => rfl) ?_ (fun _ _ => rfl) ?_ hinf ?_, ?_⟩
      · intro w; simp [pend, XPc.isPush, XTask.next]
      · intro w hw
        have hne : w ≠ v := by rintro rfl; rw [hDv] at hw; cases hw; omega
        simp only [contrib, XTask.next, XTask.added]
        rw [count_take_succ hv, if_neg hne]; simp
      · rw [hsc]; exact (bits_false hv hnf).symm
      · exact hok.next hp hv fun e => by rw [hDv] at e; cases e; omega
      · simp [XTask.weight, XPc.rank, XTask.next]; omega
  | load =>
    obtain ⟨v', hv', hDv'⟩ := hcur rfl
    have : some v = some v' := hv.symm.trans hv'
    cases this
    dsimp only
    rw [h.cnt.vget hun, res_bind_ok]
    refine ⟨_, _, _, L, G, S, rfl, h.move hi (by rfl) (by rfl) h.lv h.cnt h.sc (fun w => Or.inl rfl) ?_ (fun _ _ => rfl) (fun _ _ => rfl) (fun _ _ => rfl) hsc hinf ?_, ?_⟩
    · intro w; simp [pend, XPc.isPush]
    · refine ⟨hok.row, hok.pos, fun _ => ⟨v, hv, hDv'⟩, hok.seen, fun _ => hknown rfl, ?_⟩
      intro x hx
      cases hx
      rw [h.gold u k hu (Nat.le_refl _)]
    · simp [XTask.weight, XPc.rank]
  | add x =>
    obtain ⟨v', hv', hDv'⟩ := hcur rfl
    have : some v = some v' := hv.symm.trans hv'
    cases this
    dsimp only
    have hx := hval x rfl
    rw [h.cnt.vget hvn, res_bind_ok]
    obtain ⟨e1, e2⟩ := h.cnt.vset hvn ((G v % c.M + x) % c.M)
    rw [e1, res_bind_ok]
    refine ⟨_, _, _, L, fun w => if w = v then G v + nw c.g k s u else G w, S, rfl, h.move hi (by rfl) (by rfl) h.lv ?_ h.sc (fun w => Or.inl rfl) ?_ ?_ ?_ (fun _ _ => rfl)
      hsc hinf ?_, ?_⟩
    · refine e2.congr fun w _ => ?_
      show (if w = v then _ else _) = (if w = v then _ else _) % c.M
      split
      · rw [hx, ← Nat.add_mod]
      · rfl
    · intro w; simp [pend, XPc.isPush]
    · intro w hw
      exact if_neg (by rintro rfl; exact hw hDv')
    · intro w hw
      simp only [contrib, XTask.added]
      rw [count_take_succ hv]
      by_cases e : w = v
      · subst e; rw [if_pos rfl, if_pos rfl, Nat.add_mul]; omega
      · rw [if_neg e, if_neg e]; simp
    · exact ⟨hok.row, hok.pos, fun _ => ⟨v, hv, hDv'⟩, hok.seen, fun _ => hknown rfl, fun x hx => (by cases hx)⟩
    · simp [XTask.weight, XPc.rank]
  | mark =>
    obtain ⟨v', hv', hDv'⟩ := hcur rfl
    have : some v = some v' := hv.symm.trans hv'
    cases this
    dsimp only
    have hnt : isNext D u v = true := by rw [hnext]; rw [hDv] at hDv'; cases hDv'; simp
    obtain ⟨b1, b2⟩ := bits_true hv hnt
    have hsu : S u = bits D u row pos := hsc
    rw [h.sc.vget hun, res_bind_ok, hsu, vset_of_lt b2, res_bind_ok]
    obtain ⟨e1, e2⟩ := h.sc.vset hun ((bits D u row pos).set pos true)
    rw [e1, res_bind_ok]
    refine ⟨_, _, _, L, G, fun w => if w = u then (bits D u row pos).set pos true else S w, rfl, h.move hi (by rfl) (by rfl) h.lv h.cnt e2 (fun w => Or.inl rfl) ?_ (fun _ _ => rfl)
      (fun _ _ => rfl) ?_ ?_ hinf ?_, ?_⟩
    · intro w; simp [pend, XPc.isPush, XTask.next]
    · intro w hw; exact if_neg hw
    · show (if u = u then _ else _) = _
      rw [if_pos rfl, b1]; rfl
    · exact hok.next hp hv fun _ => hknown rfl v hv hDv'
    · simp [XTask.weight, XPc.rank, XTask.next]; omega

end step

/-- The new task of `u`. -/
def newX (g : Rows α) (u : Nat) : XTask := { u := u, row := nbrs g u, pos := 0, pc := .read }

theorem mkX_ok {u : Nat} (h : u < c.g.length) : mkX c u = .ok (newX c.g u) := by
  unfold mkX
  rw [vget_of_lt h, res_bind_ok]
  simp [newX, nbrs, h]

theorem F.start {k : Nat} {L G : Nat → Nat} {S : Nat → List Bool} {m : Mem} (h : Pre c s D k L G S m) (hg : InRange c.g) (hs : s < c.g.length)
    (hD : ∀ v d, D v = some d ↔ IsDist c.g s v d) (hinf : k + 1 < c.inf) {q : List (List Nat)} (hq : Layer D q k) :
    F c s D k L G S (q.flatten.map (newX c.g)) (List.replicate c.bins []) m where
  len := by simp
  us := by
    rw [List.map_map]
    have : XTask.u ∘ newX c.g = id := rfl
    rw [this, List.map_id]; exact hq.1
  mem := by
    intro v
    rw [List.map_map]
    have : XTask.u ∘ newX c.g = id := rfl
    rw [this, List.map_id]; exact hq.2 v
  lv := h.lv
  old := h.old
  fresh := fun v hv hf => Or.inl (h.fresh v hv hf)
  que := by
    intro v
    have h1 : ((List.replicate c.bins ([] : List Nat)).flatten).count v = 0 := by
      rw [List.flatten_replicate_nil]; rfl
    have h2 : ((q.flatten.map (newX c.g)).map (pend v)).sum = 0 := by
      rw [List.map_map, List.sum_eq_zero_iff]
      intro x hx
      obtain ⟨u, -, rfl⟩ := List.mem_map.1 hx
      simp [newX, pend, XPc.isPush]
    rw [h1, h2, if_neg]
    rintro ⟨hv, hL⟩
    by_cases hc : ∃ j, D v = some j ∧ j ≤ k
    · obtain ⟨j, h3, h4⟩ := hc
      have := h.old v j h3 h4
      omega
    · have := h.fresh v hv fun j hj => by
        by_contra hn
        exact hc ⟨j, hj, by omega⟩
      omega
  cnt := h.cnt
  gold := h.gold
  gnew := by
    intro v hv
    have h2 : ((q.flatten.map (newX c.g)).map (contrib c.g s k v)).sum = 0 := by
      rw [List.map_map, List.sum_eq_zero_iff]
      intro x hx
      obtain ⟨u, -, rfl⟩ := List.mem_map.1 hx
      simp [newX, contrib, XTask.added]
    rw [h2]
    exact h.gfar v fun j hj => by rw [hv] at hj; cases hj; omega
  gfar := fun v hv => h.gfar v fun j hj => by have := hv j hj; omega
  sc := h.sc
  sold := h.sold
  scur := by
    intro t ht
    obtain ⟨u, hu, rfl⟩ := List.mem_map.1 ht
    have hu' := (hq.2 u).1 hu
    show S u = _
    rw [h.sfar u (D_lt hg hs hD hu') fun j hj => by rw [hu'] at hj; cases hj; exact Nat.le_refl _]
    simp [bits, newX, XTask.marked]
  sfar := fun u hu hf => h.sfar u hu fun j hj => Nat.le_of_lt (hf j hj)
  tk := by
    intro t ht
    obtain ⟨u, hu, rfl⟩ := List.mem_map.1 ht
    exact ⟨rfl, Nat.zero_le _, fun h => (by cases h), fun j hj => absurd hj (Nat.not_lt_zero _), fun h => (by cases h), fun x hx => (by cases hx)⟩

theorem F.join {k : Nat} {L G : Nat → Nat} {S : Nat → List Bool} {ts : List XTask} {q2 : List (List Nat)} {m : Mem} (h : F c s D k L G S ts q2 m)
    (hg : InRange c.g) (hs : s < c.g.length) (hD : ∀ v d, D v = some d ↔ IsDist c.g s v d) (hinf : k + 1 < c.inf) (hf : ∀ t ∈ ts, t.finished) :
    Layer D q2 (k + 1) ∧ Pre c s D (k + 1) L G S m := by
  have hset : ∀ v, D v = some (k + 1) → L v = k + 1 := by
    intro v hv
    obtain ⟨u, hu, he⟩ := ((hD v _).1 hv).pred
    obtain ⟨t, ht, rfl⟩ := List.mem_map.1 ((h.mem u).2 ((hD u k).2 hu))
    have hok := h.tk t ht
    have hv' : v ∈ t.row := by rw [hok.row]; exact he
    obtain ⟨j, hj⟩ := List.getElem?_of_mem hv'
    have := (List.getElem?_eq_some_iff.1 hj).1
    have := hf t ht
    unfold XTask.finished at this
    exact hok.seen j (by omega) v hj hv
  have hiff : ∀ v, (v < c.g.length ∧ L v = k + 1) ↔ D v = some (k + 1) := by
    intro v
    constructor
    · rintro ⟨h1, h2⟩
      by_cases hc : ∃ j, D v = some j ∧ j ≤ k
      · obtain ⟨j, h3, h4⟩ := hc
        have := h.old v j h3 h4
        omega
      · rcases h.fresh v h1 fun j hj => by
          by_contra hn
          exact hc ⟨j, hj, by omega⟩ with e | e
        · omega
        · exact e.2
    · intro hv; exact ⟨D_lt hg hs hD hv, hset v hv⟩
  have hcount : ∀ v, q2.flatten.count v = if D v = some (k + 1) then 1 else 0 := by
    intro v
    have h1 := h.que v
    have h2 : (ts.map (pend v)).sum = 0 := by
      rw [List.sum_eq_zero_iff]
      intro x hx
      obtain ⟨t, ht, rfl⟩ := List.mem_map.1 hx
      have := hf t ht
      unfold XTask.finished at this
      unfold pend
      rw [List.getElem?_eq_none this]; simp
    rw [h2, Nat.add_zero] at h1
    rw [h1]
    simp only [hiff]
  refine ⟨⟨?_, ?_⟩, h.lv, ?_, ?_, h.cnt, ?_, ?_, h.sc, ?_, ?_⟩
  · rw [List.nodup_iff_count]
    intro v
    rw [hcount]; split <;> omega
  · intro v
    rw [← List.count_pos_iff, hcount]
    split
    · rename_i e; simp [e]
    · rename_i e; simp [e]
  · intro v j hv hj
    rcases Nat.lt_or_ge k j with hl | hl
    · obtain rfl : j = k + 1 := by omega
      exact hset v hv
    · exact h.old v j hv hl
  · intro v hvn hv
    rcases h.fresh v hvn fun j hj => by have := hv j hj; omega with e | e
    · exact e
    · have := hv _ e.2; omega
  · intro v j hv hj
    rcases Nat.lt_or_ge k j with hl | hl
    · obtain rfl : j = k + 1 := by omega
      rw [h.gnew v hv, nw_last hg]
      have e : ts.map (contrib c.g s k v) = (ts.map XTask.u).map fun u => mult c.g u v * nw c.g k s u := by
        rw [List.map_map]
        apply List.map_congr_left
        intro t ht
        have h1 := hf t ht
        unfold XTask.finished at h1
        have h2 : t.row.length ≤ t.added := by
          unfold XTask.added; split <;> omega
        simp only [contrib, Function.comp]
        rw [List.take_of_length_le h2, (h.tk t ht).row]; rfl
      rw [e, sum_layer c.g.length h.us h.mem fun v hv => D_lt hg hs hD hv]
      apply Finset.sum_congr rfl
      intro u hu
      by_cases hDu : D u = some k
      · rw [if_pos hDu, Nat.mul_comm]
      · rw [if_neg hDu]
        by_contra hne
        have h1 : 0 < nw c.g k s u := Nat.pos_of_ne_zero fun e => hne (by rw [e, Nat.zero_mul])
        have h2 : 0 < mult c.g u v := Nat.pos_of_ne_zero fun e => hne (by rw [e, Nat.mul_zero])
        have hw := (nw_pos hg).1 h1
        obtain ⟨d, hd⟩ := Reachable.exists_dist ⟨_, hw⟩
        have h3 := hd.2 _ hw
        have h4 := ((hD v _).1 hv).2 _ (.snoc hd.1 (mult_pos.1 h2))
        obtain rfl : d = k := by omega
        exact hDu ((hD u d).2 hd)
    · exact h.gold v j hv hl
  · exact fun v hv => h.gfar v hv
  · intro u j hj hlt
    rcases Nat.lt_or_ge j k with hl | hl
    · exact h.sold u j hj hl
    · obtain rfl : j = k := by omega
      obtain ⟨t, ht, rfl⟩ := List.mem_map.1 ((h.mem u).2 hj)
      have h1 := hf t ht
      unfold XTask.finished at h1
      have h2 : t.row.length ≤ t.marked := by
        unfold XTask.marked; omega
      rw [h.scur t ht, (h.tk t ht).row, bits, List.take_of_length_le (by rw [← (h.tk t ht).row]; exact h2), (h.tk t ht).row.symm]
      have : t.row.length - t.marked = 0 := by omega
      rw [this]; simp
  · intro u hun hu
    exact h.sfar u hun fun j hj => by have := hu j hj; omega


variable {Δ : Nat → ℚ}

/-! ### The thread -/

/-- The states of the thread of `s`. -/
inductive Inv (c : Args α) (s : Nat) (D : Nat → Option Nat) (Δ : Nat → ℚ) : Th × List AddEv → Prop
  | start : Inv c s D Δ (.start s, [])
  | fwd {k : Nat} {L G : Nat → Nat} {S : Nat → List Bool} {ts : List XTask} {q1 q2 : List (List Nat)} {retired : List (List (List Nat))} {m : Mem}
      (h : F c s D k L G S ts q2 m) (hq : Layer D q1 k) (hr : Layers D retired k) (hk : k < c.g.length) : Inv c s D Δ (.fwd ts q1 q2 retired m (k + 1), [])
  | back {k : Nat} {todo : List (List (List Nat))} {ts : List BTask} {deltas : List ℚ} {m : Mem} {log : List AddEv} {E : Nat → ℚ}
      (h : B c s D Δ k ts deltas m log E) (hr : Layers D todo k) : Inv c s D Δ (.back todo ts deltas m, log)

def meas (n : Nat) (x : Th × List AddEv) : Nat × Nat :=
  match x.1 with
  | .start _ => (3 * n + 9, 0)
  | .fwd ts _ _ _ _ lvl => ((n + 2) + (n + 2 - lvl), (ts.map XTask.weight).sum)
  | .back todo ts _ _ => (todo.length, (ts.map BTask.weight).sum)

theorem init_ok (hg : InRange c.g) (hs : s < c.g.length) (hD : ∀ v d, D v = some d ↔ IsDist c.g s v d) (hb : 0 < c.bins) (hinf : c.g.length < c.inf) (hM : 1 < c.M) :
    ∃ x, init c s = .ok x ∧ Inv c s D Δ (x, []) ∧ Prod.Lex Nat.lt Nat.lt (meas c.g.length (x, [])) (meas c.g.length (.start s, [])) := by
  have hDs : D s = some 0 := (hD s 0).2 (.zero _ _)
  have hD0 : ∀ v, D v = some 0 → v = s := fun v hv => ((hD v 0).1 hv).of_zero
  unfold init
  obtain ⟨e1, e2⟩ := (Vec.replicate c.g.length 0).vset hs 1
  obtain ⟨e3, e4⟩ := (Vec.replicate c.g.length c.inf).vset hs 0
  have hfl : ((List.replicate c.bins ([] : List Nat)).set 0 [s]).flatten = [s] := by
    obtain ⟨b, hb'⟩ : ∃ b, c.bins = b + 1 := ⟨c.bins - 1, by omega⟩
    rw [hb', List.replicate_succ, List.set_cons_zero, List.flatten_cons, List.flatten_replicate_nil]; rfl
  have hlay : Layer D ((List.replicate c.bins ([] : List Nat)).set 0 [s]) 0 := by
    refine ⟨by rw [hfl]; simp, fun v => ?_⟩
    rw [hfl, List.mem_singleton]
    exact ⟨fun e => e ▸ hDs, hD0 v⟩
  rw [e1, res_bind_ok, vset_of_lt (by simpa using hb), res_bind_ok, e3, res_bind_ok,
    mapM_ok_of_forall (g := newX c.g) fun u hu => mkX_ok (D_lt hg hs hD ((hlay.2 u).1 hu)), res_bind_ok]
  refine ⟨_, rfl, ?_, ?_⟩
  · refine .fwd (k := 0) (L := fun w => if w = s then 0 else c.inf) (G := fun w => if w = s then 1 else 0)
      (S := fun u => List.replicate (nbrs c.g u).length false) (F.start ⟨e4, ?_, ?_, ?_, ?_, ?_, ?_, ?_, ?_⟩ hg hs hD (by omega) hlay) hlay trivial (by omega)
    · intro v j hv hj
      obtain rfl : j = 0 := by omega
      exact if_pos (hD0 v hv)
    · intro v _ hv
      refine if_neg ?_
      rintro rfl
      have := hv 0 hDs; omega
    · refine e2.congr fun v _ => ?_
      show (if v = s then 1 else 0) = (if v = s then 1 else 0) % c.M
      split
      · rw [Nat.mod_eq_of_lt hM]
      · rw [Nat.zero_mod]
    · intro v j hv hj
      obtain rfl : j = 0 := by omega
      have := hD0 v hv
      subst this
      rw [nw_zero]
    · intro v hv
      refine if_neg ?_
      rintro rfl
      have := hv 0 hDs; omega
    · refine ⟨by simp, fun v hv => ?_⟩
      rw [List.getElem?_map, List.getElem?_eq_getElem hv]
      simp [nbrs, hv]
    · intro u j _ hj; omega
    · intro u _ _; rfl
  · left
    show (c.g.length + 2) + (c.g.length + 2 - (0 + 1)) < 3 * c.g.length + 9
    omega

theorem thread_sure (hg : InRange c.g) (hs : s < c.g.length) (hD : ∀ v d, D v = some d ↔ IsDist c.g s v d) (hb : 0 < c.bins) (hinf : c.g.length < c.inf)
    (hfit : ∀ v d, D v = some d → nw c.g d s v < c.M) (hΔ : Rec c s D Δ) : Sure (Logged (XStep c)) (Adds c D Δ) (.start s, []) := by
  have hM : 1 < c.M := by
    have := hfit s 0 ((hD s 0).2 (.zero _ _))
    rwa [nw_zero, if_pos rfl] at this
  refine Sure.of_inv (Prod.lex Nat.lt_wfRel Nat.lt_wfRel).wf (meas c.g.length) (Inv c s D Δ) ?_ ?_ _ .start
  · rintro x hx
    cases hx with
    | start =>
      obtain ⟨x, h1, -⟩ := init_ok (Δ := Δ) hg hs hD hb hinf hM
      have := XStep.start (c := c) (root := s)
      rw [h1] at this
      exact ⟨_, .go this⟩
    | @fwd k L G S ts q1 q2 retired m h hq hr hk =>
      by_cases hall : ∀ t ∈ ts, t.finished
      · have := XStep.fJoin (c := c) (q1 := q1) (q2 := q2) (retired := retired) (m := m) (lvl := k + 1) hall
        cases hj : fJoin c q1 q2 retired m (k + 1) with
        | error f => rw [hj] at this; exact ⟨_, .fault this⟩
        | ok x => rw [hj] at this; exact ⟨_, .go this⟩
      · push Not at hall
        obtain ⟨t, ht, hf⟩ := hall
        obtain ⟨i, hi⟩ := List.getElem?_of_mem ht
        have := XStep.fStep (c := c) (q1 := q1) (q2 := q2) (retired := retired) (m := m) (lvl := k + 1) hi hf
        cases hj : xTask c (k + 1) q2 m t with
        | error f => rw [hj] at this; exact ⟨_, .fault this⟩
        | ok x => rw [hj] at this; exact ⟨_, .go this⟩
    | @back k todo ts deltas m log E h hr =>
      by_cases hall : ∀ t ∈ ts, t.pc = .done
      · have := XStep.bJoin (c := c) (todo := todo) (deltas := deltas) (m := m) hall
        cases hj : bJoin c todo deltas m with
        | error f => rw [hj] at this; exact ⟨_, .fault this⟩
        | ok x =>
          rw [hj] at this
          rcases x with ⟨x, e⟩ | ⟨⟨⟩⟩
          · exact ⟨_, .go this⟩
          · exact ⟨_, .stop this⟩
      · push Not at hall
        obtain ⟨t, ht, hf⟩ := hall
        obtain ⟨i, hi⟩ := List.getElem?_of_mem ht
        have := XStep.bStep (c := c) (todo := todo) (deltas := deltas) (m := m) hi hf
        cases hj : bTask c m deltas t with
        | error f => rw [hj] at this; exact ⟨_, .fault this⟩
        | ok x => rw [hj] at this; exact ⟨_, .go this⟩
  · rintro x o hx ho
    cases hx with
    | start =>
      obtain ⟨x, h1, h2, h3⟩ := init_ok (Δ := Δ) hg hs hD hb hinf hM
      have key : ∀ o', XStep c (.start s) o' → o' = .ok (.inl (x, none)) := by
        intro o' h
        cases h with
        | start => rw [h1]; rfl
      cases ho with
      | go h => cases key _ h; exact Or.inl ⟨_, rfl, by simpa using h2, h3⟩
      | fault h => cases key _ h
      | stop h => cases key _ h
    | @fwd k L G S ts q1 q2 retired m h hq hr hk =>
      have hinf' : k + 1 < c.inf := by omega
      have key : ∀ o', XStep c (.fwd ts q1 q2 retired m (k + 1)) o' → ∃ x, o' = .ok (.inl (x, none)) ∧ Inv c s D Δ (x, []) ∧
          Prod.Lex Nat.lt Nat.lt (meas c.g.length (x, [])) (meas c.g.length (.fwd ts q1 q2 retired m (k + 1), [])) := by
        intro o' h'
        cases h' with
        | fStep hi hf =>
          obtain ⟨q2', m', t', L', G', S', e, hF, hw⟩ := xTask_ok hg hs hD hb hinf' h hi hf
          rw [e]
          refine ⟨_, rfl, .fwd hF hq hr hk, ?_⟩
          exact Prod.Lex.right _ (sum_map_set_lt _ hi hw)
        | fJoin hf =>
          obtain ⟨hl, hp⟩ := h.join hg hs hD hinf' hf
          unfold fJoin
          by_cases hem : q2.all List.isEmpty = true
          · rw [if_pos hem]
            have hnone : ∀ v, D v ≠ some (k + 1) := by
              intro v hv
              have := (hl.2 v).2 hv
              obtain ⟨l, h1, h2⟩ := List.mem_flatten.1 this
              have := List.all_eq_true.1 hem l h1
              rw [List.isEmpty_iff] at this
              subst this; simp at h2
            have hle : ∀ v j, D v = some j → j ≤ k := by
              intro v j hv
              by_contra hlt
              obtain ⟨w, hw⟩ := ((hD v j).1 hv).down (j := k + 1) (by omega)
              exact hnone w ((hD w _).2 hw)
            refine ⟨_, rfl, .back (k := k + 1) (E := fun _ => 0) ⟨by simp, ?_, ⟨?_, ?_⟩, Vec.replicate _ _, ?_, by simp, by simp, ?_⟩ ⟨hq, hr⟩, ?_⟩
            · intro v; simpa using hnone v
            · intro v j hv
              rw [hp.cnt.vget (D_lt hg hs hD hv), hp.gold v j hv (by have := hle v j hv; omega), Nat.mod_eq_of_lt (hfit v j hv)]
            · intro u j hu
              rw [hp.sc.vget (D_lt hg hs hD hu), hp.sold u j hu (by have := hle u j hu; omega)]
            · rintro v ⟨j, h1, h2⟩
              have := hle v j h1; omega
            · intro v
              rw [if_neg]
              · simp [logSum]
              · rintro ⟨j, h1, h2⟩
                have := hle v j h1; omega
            · left
              show retired.length + 1 < (c.g.length + 2) + (c.g.length + 2 - (k + 1))
              rw [hr.length]; omega
          · rw [if_neg hem, mapM_ok_of_forall (g := newX c.g) fun u hu => mkX_ok (D_lt hg hs hD ((hl.2 u).1 hu)), res_bind_ok]
            have hk' : k + 1 < c.g.length := by
              have : q2.flatten ≠ [] := by
                intro e
                apply hem
                rw [List.all_eq_true]
                intro l hl'
                rw [List.isEmpty_iff]
                exact List.flatten_eq_nil_iff.1 e l hl'
              obtain ⟨v, hv⟩ := List.exists_mem_of_ne_nil _ this
              exact D_bound hg hs hD ((hl.2 v).1 hv)
            refine ⟨_, rfl, .fwd (F.start hp hg hs hD (by omega) hl) hl ⟨hq, hr⟩ hk', ?_⟩
            left
            show (c.g.length + 2) + (c.g.length + 2 - (k + 1 + 1)) < (c.g.length + 2) + (c.g.length + 2 - (k + 1))
            omega
      cases ho with
      | go h =>
        obtain ⟨x, e, h2, h3⟩ := key _ h
        cases e; exact Or.inl ⟨_, rfl, by simpa using h2, h3⟩
      | fault h => obtain ⟨x, e, -⟩ := key _ h; cases e
      | stop h => obtain ⟨x, e, -⟩ := key _ h; cases e
    | @back k todo ts deltas m log E h hr =>
      have key : ∀ o', XStep c (.back todo ts deltas m) o' → (∃ x e, o' = .ok (.inl (x, e)) ∧ Inv c s D Δ (x, log ++ e.toList) ∧
          Prod.Lex Nat.lt Nat.lt (meas c.g.length (x, log ++ e.toList)) (meas c.g.length (.back todo ts deltas m, log))) ∨ (o' = .ok (.inr ()) ∧ Adds c D Δ log) := by
        intro o' h'
        cases h' with
        | bStep hi hf =>
          obtain ⟨deltas', t', e, E', he, hB, hw⟩ := bTask_ok hg hs hD hΔ h hi hf
          rw [he]
          exact Or.inl ⟨_, _, rfl, .back hB hr, Prod.Lex.right _ (sum_map_set_lt _ hi hw)⟩
        | bJoin hf =>
          cases todo with
          | nil =>
            cases k with
            | zero => exact Or.inr ⟨rfl, h.rng, h.final hf⟩
            | succ k => exact hr.elim
          | cons q todo =>
            cases k with
            | zero => exact hr.elim
            | succ k =>
              have := h.next hf hr.1
              left
              unfold bJoin
              dsimp only
              rw [mapM_ok_of_forall (g := newB c.g) fun u hu => mkB_ok (D_lt hg hs hD ((hr.1.2 u).1 hu)), res_bind_ok]
              refine ⟨_, _, rfl, by simpa using Inv.back this hr.2, ?_⟩
              left
              exact Nat.lt_succ_self _
      cases ho with
      | go h =>
        rcases key _ h with ⟨x, e, h1, h2, h3⟩ | ⟨h1, -⟩
        · cases h1; exact Or.inl ⟨_, rfl, h2, h3⟩
        · cases h1
      | fault h => rcases key _ h with ⟨x, e, h1, h2, h3⟩ | ⟨h1, -⟩ <;> cases h1
      | stop h =>
        rcases key _ h with ⟨x, e, h1, h2, h3⟩ | ⟨h1, h2⟩
        · cases h1
        · exact Or.inr ⟨_, rfl, h2⟩

end NW.BcExpPar
