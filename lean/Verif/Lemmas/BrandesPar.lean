import Verif.Model.BrandesPar
import Verif.Lemmas.Brandes

/-! # Lemmas: the forward rounds of the parallel betweenness routine -/

namespace NW.BrandesPar
open Spec
open NW.Brandes (Vec isNext isNext_iff)

variable {α : Type}

theorem nsum_map_set {τ : Type} (w : τ → Nat) {l : List τ} {i : Nat} {x y : τ} (h : l[i]? = some x) :
    ((l.set i y).map w).sum + w x = (l.map w).sum + w y := by
  induction l generalizing i with
  | nil => simp at h
  | cons a l ih =>
    cases i with
    | zero => simp at h; subst h; simp; omega
    | succ i =>
      rw [List.getElem?_cons_succ] at h
      have := ih h
      rw [List.set_cons_succ, List.map_cons, List.sum_cons, List.map_cons, List.sum_cons]; omega

def FPc.isPush : FPc → Bool
  | .push => true
  | _ => false

/-- The level of `v` is known to be set. -/
def FPc.knows : FPc → Bool
  | .load b => !b
  | .add b _ => !b
  | .mark b => !b
  | .push => true
  | _ => false

/-- The number of neighbours whose count has been raised (or who need not be counted). -/
def FTask.added (t : FTask) : Nat :=
  match t.pc with
  | .mark _ => t.pos + 1
  | .cas => t.pos + 1
  | .push => t.pos + 1
  | _ => t.pos

/-- The number of neighbours whose bit has been set (or need not be set). -/
def FTask.marked (t : FTask) : Nat :=
  match t.pc with
  | .cas => t.pos + 1
  | .push => t.pos + 1
  | _ => t.pos

def FPc.rank : FPc → Nat
  | .read => 5
  | .load _ => 4
  | .add _ _ => 3
  | .mark _ => 2
  | .cas => 1
  | .push => 0

/-- The steps left, at most. -/
def FTask.weight (t : FTask) : Nat := 6 * (t.row.length - t.pos) + t.pc.rank

/-- 1 if the task is about to enqueue `v`. -/
def pend (v : Nat) (t : FTask) : Nat := if t.pc.isPush ∧ t.row[t.pos]? = some v then 1 else 0

/-- What the task has added to the count of `v`. -/
def contrib (g : Rows α) (s k v : Nat) (t : FTask) : Nat := (t.row.take t.added).count v * nw g k s t.u

/-- The bits of a row after its first `p` entries. -/
def bits (D : Nat → Option Nat) (u : Nat) (row : List Nat) (p : Nat) : List Bool :=
  (row.take p).map (isNext D u) ++ List.replicate (row.length - p) false

structure TOk (c : Args α) (s : Nat) (D : Nat → Option Nat) (k : Nat) (L : Nat → Nat) (t : FTask) : Prop where
  row : t.row = nbrs c.g t.u
  pos : t.pos ≤ t.row.length
  cur : t.pc.rank ≠ 5 → ∃ v, t.row[t.pos]? = some v ∧ D v = some (k + 1)
  seen : ∀ j < t.pos, ∀ v, t.row[j]? = some v → D v = some (k + 1) → L v = k + 1
  known : t.pc.knows = true → ∀ v, t.row[t.pos]? = some v → L v = k + 1
  val : ∀ b x, t.pc = .add b x → x = nw c.g k s t.u % c.M

/-- The state in the forward round from level `k`. -/
structure F (c : Args α) (s : Nat) (D : Nat → Option Nat) (k : Nat) (L G : Nat → Nat) (S : Nat → List Bool) (ts : List FTask) (q2 : List (List Nat)) (m : Mem) :
    Prop where
  len : q2.length = c.bins
  us : (ts.map FTask.u).Nodup
  mem : ∀ v, v ∈ ts.map FTask.u ↔ D v = some k
  lv : Vec c.g.length L m.levels
  old : ∀ v j, D v = some j → j ≤ k → L v = j
  fresh : ∀ v < c.g.length, (∀ j, D v = some j → k < j) → L v = c.inf ∨ (L v = k + 1 ∧ D v = some (k + 1))
  que : ∀ v, q2.flatten.count v + (ts.map (pend v)).sum = if v < c.g.length ∧ L v = k + 1 then 1 else 0
  cnt : Vec c.g.length (fun v => G v % c.M) m.pc
  gold : ∀ v j, D v = some j → j ≤ k → G v = nw c.g j s v
  gnew : ∀ v, D v = some (k + 1) → G v = (ts.map (contrib c.g s k v)).sum
  gfar : ∀ v, (∀ j, D v = some j → k + 1 < j) → G v = 0
  sc : Vec c.g.length S m.succ
  sold : ∀ u j, D u = some j → j < k → S u = (nbrs c.g u).map (isNext D u)
  scur : ∀ t ∈ ts, S t.u = bits D t.u t.row t.marked
  sfar : ∀ u < c.g.length, (∀ j, D u = some j → k < j) → S u = List.replicate (nbrs c.g u).length false
  tk : ∀ t ∈ ts, TOk c s D k L t

variable {c : Args α} {s : Nat} {D : Nat → Option Nat}

theorem D_lt (hg : InRange c.g) (hs : s < c.g.length) (hD : ∀ v d, D v = some d ↔ IsDist c.g s v d) {v d : Nat} (h : D v = some d) : v < c.g.length :=
  ((hD v d).1 h).1.lt hg hs

theorem D_bound (hg : InRange c.g) (hs : s < c.g.length) (hD : ∀ v d, D v = some d ↔ IsDist c.g s v d) {v d : Nat} (h : D v = some d) : d < c.g.length :=
  ((hD v d).1 h).lt_length hg hs

theorem D_next (hD : ∀ v d, D v = some d ↔ IsDist c.g s v d) {u v k : Nat} (hu : D u = some k) (he : v ∈ nbrs c.g u) : ∃ j, D v = some j ∧ j ≤ k + 1 := by
  have hw : Walk c.g s v (k + 1) := .snoc ((hD u k).1 hu).1 he
  obtain ⟨j, hj⟩ := Reachable.exists_dist ⟨_, hw⟩
  exact ⟨j, (hD v j).2 hj, hj.2 _ hw⟩

theorem TOk.mono {k : Nat} {L L' : Nat → Nat} {t : FTask} (h : TOk c s D k L t) (hL : ∀ w, L w = k + 1 → L' w = k + 1) : TOk c s D k L' t :=
  { h with seen := fun j hj v hv hd => hL _ (h.seen j hj v hv hd), known := fun hk v hv => hL _ (h.known hk v hv) }

theorem TOk.next {k : Nat} {L : Nat → Nat} {t : FTask} (h : TOk c s D k L t) (hf : t.pos < t.row.length) {v : Nat} (hv : t.row[t.pos]? = some v)
    (hd : D v = some (k + 1) → L v = k + 1) : TOk c s D k L t.next where
  row := h.row
  pos := hf
  cur := fun hne => absurd rfl hne
  seen := by
    intro j hj w hw hDw
    rcases Nat.lt_succ_iff_lt_or_eq.1 hj with hlt | rfl
    · exact h.seen j hlt w hw hDw
    · have : some w = some v := hw.symm.trans hv
      cases this; exact hd hDw
  known := fun hk => by cases hk
  val := fun b x hx => by cases hx

theorem bits_false {u : Nat} {row : List Nat} {p v : Nat} (hv : row[p]? = some v) (hn : isNext D u v = false) : bits D u row (p + 1) = bits D u row p := by
  have hp : p < row.length := (List.getElem?_eq_some_iff.1 hv).1
  have e : row.take (p + 1) = row.take p ++ [v] := by rw [List.take_add_one, hv]; rfl
  unfold bits
  rw [e, List.map_append, List.append_assoc]
  congr 1
  have : row.length - p = (row.length - (p + 1)) + 1 := by omega
  rw [this, List.replicate_succ]
  simp [hn]

theorem bits_true {u : Nat} {row : List Nat} {p v : Nat} (hv : row[p]? = some v) (hn : isNext D u v = true) :
    (bits D u row p).set p true = bits D u row (p + 1) ∧ p < (bits D u row p).length := by
  have hp : p < row.length := (List.getElem?_eq_some_iff.1 hv).1
  have e : row.take (p + 1) = row.take p ++ [v] := by rw [List.take_add_one, hv]; rfl
  have hl : ((row.take p).map (isNext D u)).length = p := by simp; omega
  constructor
  · unfold bits
    rw [e, List.map_append, List.append_assoc]
    have h1 : row.length - p = (row.length - (p + 1)) + 1 := by omega
    rw [List.set_append_right _ _ (by rw [hl]), hl, Nat.sub_self, h1, List.replicate_succ, List.set_cons_zero]
    simp [hn]
  · unfold bits
    simp; omega

theorem count_take_succ {row : List Nat} {p v w : Nat} (hv : row[p]? = some v) : (row.take (p + 1)).count w = (row.take p).count w + if w = v then 1 else 0 := by
  rw [List.take_add_one, hv]
  simp only [Option.toList_some, List.count_append, List.count_singleton]
  by_cases e : w = v
  · subst e; simp
  · have : (v == w) = false := by simpa using fun h : v = w => e h.symm
    simp [this, e]

theorem count_flatten_set {q : List (List Nat)} {i : Nat} {b : List Nat} (h : q[i]? = some b) (v w : Nat) :
    (q.set i (b ++ [v])).flatten.count w = q.flatten.count w + if w = v then 1 else 0 := by
  rw [List.count_flatten, List.count_flatten]
  have := nsum_map_set (List.count w) (y := b ++ [v]) h
  have e : (b ++ [v]).count w = b.count w + if w = v then 1 else 0 := by
    rw [List.count_append, List.count_singleton]
    by_cases e : w = v
    · subst e; simp
    · have : (v == w) = false := by simpa using fun h : v = w => e h.symm
      simp [this, e]
  rw [e] at this
  omega

section step
variable {k : Nat} {L G : Nat → Nat} {S : Nat → List Bool} {ts : List FTask} {q2 : List (List Nat)} {m : Mem}

/-- The tasks after one has moved. -/
theorem F.cases (h : F c s D k L G S ts q2 m) {i : Nat} {t t' : FTask} (hi : ts[i]? = some t) : ∀ x ∈ ts.set i t', x = t' ∨ (x ∈ ts ∧ x.u ≠ t.u) := by
  intro x hx
  obtain ⟨j, hj⟩ := List.getElem?_of_mem hx
  rcases getElem?_set_cases hj with ⟨rfl, rfl⟩ | ⟨hne, hj'⟩
  · exact Or.inl rfl
  · refine Or.inr ⟨List.mem_of_getElem? hj', fun e => hne ?_⟩
    have h1 : (ts.map FTask.u)[i]? = some t.u := by simp [hi]
    have h2 : (ts.map FTask.u)[j]? = some t.u := by simp [hj', e]
    obtain ⟨l1, e1⟩ := List.getElem?_eq_some_iff.1 h1
    obtain ⟨l2, e2⟩ := List.getElem?_eq_some_iff.1 h2
    exact (h.us.getElem_inj_iff (hi := l1) (hj := l2)).1 (e1.trans e2.symm)

theorem map_u_set {i : Nat} {t t' : FTask} (hi : ts[i]? = some t) (hu : t'.u = t.u) : (ts.set i t').map FTask.u = ts.map FTask.u := by
  rw [List.map_set, hu]
  apply List.ext_getElem? fun j => ?_
  rw [List.getElem?_set]
  split
  · rename_i e; subst e
    split
    · simp [hi]
    · rename_i h1; rw [List.getElem?_eq_none (by simpa using h1)]
  · rfl

/-- When a task moves.  The hypotheses say how the arrays change with it. -/
theorem F.move (h : F c s D k L G S ts q2 m) {i : Nat} {t t' : FTask} (hi : ts[i]? = some t) (hu : t'.u = t.u) {L' G' : Nat → Nat} {S' : Nat → List Bool}
    {q2' : List (List Nat)} {m' : Mem} (hlen : q2'.length = q2.length) (hlv : Vec c.g.length L' m'.levels) (hcnt : Vec c.g.length (fun v => G' v % c.M) m'.pc)
    (hsc : Vec c.g.length S' m'.succ) (hL : ∀ w, L' w = L w ∨ (L w = c.inf ∧ L' w = k + 1 ∧ D w = some (k + 1)))
    (hq : ∀ v, q2'.flatten.count v + pend v t' + (if v < c.g.length ∧ L v = k + 1 then 1 else 0) =
      q2.flatten.count v + pend v t + if v < c.g.length ∧ L' v = k + 1 then 1 else 0)
    (hG : ∀ v, D v ≠ some (k + 1) → G' v = G v)
    (hc : ∀ v, D v = some (k + 1) → G' v + contrib c.g s k v t = G v + contrib c.g s k v t')
    (hS : ∀ u, u ≠ t.u → S' u = S u) (hSt : S' t.u = bits D t'.u t'.row t'.marked) (hinf : k + 1 < c.inf)
    (hok : TOk c s D k L' t') : F c s D k L' G' S' (ts.set i t') q2' m' := by
  have hmap := map_u_set hi hu
  have ht : t ∈ ts := List.mem_of_getElem? hi
  have htk : D t.u = some k := (h.mem t.u).1 (List.mem_map_of_mem ht)
  have hmono : ∀ w, L w = k + 1 → L' w = k + 1 := by
    intro w hw
    rcases hL w with e | ⟨e, -, -⟩
    · rw [e, hw]
    · omega
  refine ⟨hlen.trans h.len, by rw [hmap]; exact h.us, fun v => by rw [hmap]; exact h.mem v, hlv, ?_, ?_, ?_, hcnt, ?_, ?_, ?_, hsc, ?_, ?_, ?_, ?_⟩
  · intro v j hv hj
    rcases hL v with e | ⟨-, -, e⟩
    · rw [e]; exact h.old v j hv hj
    · rw [hv] at e; cases e; omega
  · intro v hvn hv
    rcases hL v with e | ⟨-, e1, e2⟩
    · rw [e]; exact h.fresh v hvn hv
    · exact Or.inr ⟨e1, e2⟩
  · intro v
    have h1 := nsum_map_set (pend v) (y := t') hi
    have h2 := h.que v
    have h3 := hq v
    omega
  · intro v j hv hj
    rw [hG v (by rw [hv]; simp; omega)]; exact h.gold v j hv hj
  · intro v hv
    have h1 := nsum_map_set (contrib c.g s k v) (y := t') hi
    have h2 := h.gnew v hv
    have h3 := hc v hv
    omega
  · intro v hv
    rw [hG v fun e => by have := hv _ e; omega]; exact h.gfar v hv
  · intro u j hj hlt
    rw [hS u (by rintro rfl; rw [hj] at htk; cases htk; omega)]; exact h.sold u j hj hlt
  · intro x hx
    rcases h.cases hi x hx with rfl | ⟨hx', hne⟩
    · rw [← hSt, hu]
    · rw [hS _ hne]; exact h.scur x hx'
  · intro u hun hu'
    rw [hS u (by rintro rfl; have := hu' _ htk; omega)]; exact h.sfar u hun hu'
  · intro x hx
    rcases h.cases hi x hx with rfl | ⟨hx', -⟩
    · exact hok
    · exact (h.tk x hx').mono hmono

theorem fTask_ok (hg : InRange c.g) (hs : s < c.g.length) (hD : ∀ v d, D v = some d ↔ IsDist c.g s v d) (hb : 0 < c.bins) (hinf : k + 1 < c.inf)
    (h : F c s D k L G S ts q2 m) {i : Nat} {t : FTask} (hi : ts[i]? = some t) (hf : ¬ t.finished) :
    ∃ q2' m' t' L' G' S', fTask c (k + 1) q2 m t = .ok (q2', m', t') ∧ F c s D k L' G' S' (ts.set i t') q2' m' ∧ t'.weight < t.weight := by
  have ht : t ∈ ts := List.mem_of_getElem? hi
  have hu : D t.u = some k := (h.mem t.u).1 (List.mem_map_of_mem ht)
  have hun : t.u < c.g.length := D_lt hg hs hD hu
  have hok := h.tk t ht
  have hp : t.pos < t.row.length := by unfold FTask.finished at hf; omega
  obtain ⟨v, hv⟩ : ∃ v, t.row[t.pos]? = some v := ⟨_, List.getElem?_eq_getElem hp⟩
  have hvm : v ∈ nbrs c.g t.u := by rw [← hok.row]; exact List.mem_of_getElem? hv
  obtain ⟨j, hDv, hj⟩ := D_next hD hu hvm
  have hvn : v < c.g.length := D_lt hg hs hD hDv
  have hnext : isNext D t.u v = decide (j = k + 1) := by
    rw [Bool.eq_iff_iff, isNext_iff, hDv, hu]; simp
  have hLv : j ≤ k → L v = j := fun hjk => h.old v j hDv hjk
  have hLn : j = k + 1 → L v = c.inf ∨ L v = k + 1 := fun e => by
    rcases h.fresh v hvn (by intro j' hj'; rw [hDv] at hj'; cases hj'; omega) with e | e
    · exact Or.inl e
    · exact Or.inr e.1
  have hcur := hok.cur
  have hsc := h.scur t ht
  have hknown := hok.known
  have hval := hok.val
  obtain ⟨u, row, pos, pc⟩ := t
  simp only at hv hp hu hun hvm hnext hsc hcur hknown hval
  unfold fTask
  rw [vget_eq_ok.2 hv, res_bind_ok]
  cases pc with
  | read =>
    dsimp only
    rw [h.lv.vget hvn, res_bind_ok]
    by_cases hcond : L v = c.inf ∨ L v = k + 1
    · rw [if_pos hcond]
      have hjk : j = k + 1 := by
        rcases Nat.lt_or_ge k j with hl | hl
        · omega
        · have := hLv hl; omega
      refine ⟨_, _, _, L, G, S, rfl, h.move hi (by rfl) (by rfl) h.lv h.cnt h.sc (fun w => Or.inl rfl) ?_ (fun _ _ => rfl) (fun _ _ => rfl) (fun _ _ => rfl) hsc hinf ?_, ?_⟩
      · intro w; simp [pend, FPc.isPush]
      · refine ⟨hok.row, hok.pos, fun _ => ⟨v, hv, hjk ▸ hDv⟩, hok.seen, ?_, fun b x hx => by cases hx⟩
        intro hk w hw
        have : some v = some w := hv.symm.trans hw
        cases this
        rcases hcond with e | e
        · simp [FPc.knows, e] at hk
        · exact e
      · simp [FTask.weight, FPc.rank]
    · rw [if_neg hcond]
      have hjk : j ≤ k := by
        rcases Nat.lt_or_ge k j with hl | hl
        · exact absurd (hLn (by omega)) hcond
        · exact hl
      have hnf : isNext D u v = false := by rw [hnext]; simp; omega
      refine ⟨_, _, _, L, G, S, rfl, h.move hi (by rfl) (by rfl) h.lv h.cnt h.sc (fun w => Or.inl rfl) ?_ (fun _ _ => rfl) ?_ (fun _ _ => rfl) ?_ hinf ?_, ?_⟩
      · intro w; simp [pend, FPc.isPush, FTask.next]
      · intro w hw
        have hne : w ≠ v := by rintro rfl; rw [hDv] at hw; cases hw; omega
        simp only [contrib, FTask.next, FTask.added]
        rw [count_take_succ hv, if_neg hne]; simp
      · rw [hsc]; exact (bits_false hv hnf).symm
      · exact hok.next hp hv fun e => by rw [hDv] at e; cases e; omega
      · simp [FTask.weight, FPc.rank, FTask.next]; omega
  | load unk =>
    obtain ⟨v', hv', hDv'⟩ := hcur (by simp [FPc.rank])
    have : some v = some v' := hv.symm.trans hv'
    cases this
    dsimp only
    rw [h.cnt.vget hun, res_bind_ok]
    refine ⟨_, _, _, L, G, S, rfl, h.move hi (by rfl) (by rfl) h.lv h.cnt h.sc (fun w => Or.inl rfl) ?_ (fun _ _ => rfl) (fun _ _ => rfl) (fun _ _ => rfl) hsc hinf ?_, ?_⟩
    · intro w; simp [pend, FPc.isPush]
    · refine ⟨hok.row, hok.pos, fun _ => ⟨v, hv, hDv'⟩, hok.seen, hknown, ?_⟩
      intro b x hx
      cases hx
      rw [h.gold u k hu (Nat.le_refl _)]
    · simp [FTask.weight, FPc.rank]
  | add unk x =>
    obtain ⟨v', hv', hDv'⟩ := hcur (by simp [FPc.rank])
    have : some v = some v' := hv.symm.trans hv'
    cases this
    dsimp only
    have hx := hval unk x rfl
    rw [h.cnt.vget hvn, res_bind_ok]
    obtain ⟨e1, e2⟩ := h.cnt.vset hvn ((G v % c.M + x) % c.M)
    rw [e1, res_bind_ok]
    refine ⟨_, _, _, L, fun w => if w = v then G v + nw c.g k s u else G w, S, rfl, h.move hi (by rfl) (by rfl) h.lv ?_ h.sc (fun w => Or.inl rfl) ?_ ?_ ?_ (fun _ _ => rfl)
      hsc hinf ?_, ?_⟩
    · refine e2.congr fun w _ => ?_
      show (if w = v then _ else _) = (if w = v then _ else _) % c.M
      split
      · rw [hx, ← Nat.add_mod]
      · rfl
    · intro w; simp [pend, FPc.isPush]
    · intro w hw
      exact if_neg (by rintro rfl; exact hw hDv')
    · intro w hw
      simp only [contrib, FTask.added]
      rw [count_take_succ hv]
      by_cases e : w = v
      · subst e; rw [if_pos rfl, if_pos rfl, Nat.add_mul]; omega
      · rw [if_neg e, if_neg e]; simp
    · exact ⟨hok.row, hok.pos, fun _ => ⟨v, hv, hDv'⟩, hok.seen, hknown, fun b x hx => by cases hx⟩
    · simp [FTask.weight, FPc.rank]
  | mark unk =>
    obtain ⟨v', hv', hDv'⟩ := hcur (by simp [FPc.rank])
    have : some v = some v' := hv.symm.trans hv'
    cases this
    dsimp only
    have hnt : isNext D u v = true := by rw [hnext]; rw [hDv] at hDv'; cases hDv'; simp
    obtain ⟨b1, b2⟩ := bits_true hv hnt
    have hsu : S u = bits D u row pos := hsc
    rw [h.sc.vget hun, res_bind_ok, hsu, vset_of_lt b2, res_bind_ok]
    obtain ⟨e1, e2⟩ := h.sc.vset hun ((bits D u row pos).set pos true)
    rw [e1, res_bind_ok]
    cases unk with
    | true =>
      refine ⟨_, _, _, L, G, fun w => if w = u then (bits D u row pos).set pos true else S w, rfl, h.move hi (by rfl) (by rfl) h.lv h.cnt e2 (fun w => Or.inl rfl) ?_ (fun _ _ => rfl)
        (fun _ _ => rfl) ?_ ?_ hinf ?_, ?_⟩
      · intro w; simp [pend, FPc.isPush]
      · intro w hw; exact if_neg hw
      · show (if u = u then _ else _) = _
        rw [if_pos rfl, b1]; rfl
      · exact ⟨hok.row, hok.pos, fun _ => ⟨v, hv, hDv'⟩, hok.seen, fun hk => (by cases hk), fun b x hx => (by cases hx)⟩
      · simp [FTask.weight, FPc.rank]
    | false =>
      refine ⟨_, _, _, L, G, fun w => if w = u then (bits D u row pos).set pos true else S w, rfl, h.move hi (by rfl) (by rfl) h.lv h.cnt e2 (fun w => Or.inl rfl) ?_ (fun _ _ => rfl)
        (fun _ _ => rfl) ?_ ?_ hinf ?_, ?_⟩
      · intro w; simp [pend, FPc.isPush, FTask.next]
      · intro w hw; exact if_neg hw
      · show (if u = u then _ else _) = _
        rw [if_pos rfl, b1]; rfl
      · exact hok.next hp hv fun _ => hknown rfl v hv
      · simp [FTask.weight, FPc.rank, FTask.next]; omega
  | cas =>
    obtain ⟨v', hv', hDv'⟩ := hcur (by simp [FPc.rank])
    have : some v = some v' := hv.symm.trans hv'
    cases this
    have hjk : j = k + 1 := by rw [hDv] at hDv'; cases hDv'; rfl
    dsimp only
    rw [h.lv.vget hvn, res_bind_ok]
    by_cases hcond : L v = c.inf
    · rw [if_pos hcond]
      obtain ⟨e1, e2⟩ := h.lv.vset hvn (k + 1)
      rw [e1, res_bind_ok]
      have hL' : ∀ w, (fun w => if w = v then k + 1 else L w) w = L w ∨ (L w = c.inf ∧ (fun w => if w = v then k + 1 else L w) w = k + 1 ∧ D w = some (k + 1)) := by
        intro w
        by_cases e : w = v
        · subst e; exact Or.inr ⟨hcond, if_pos rfl, hDv'⟩
        · exact Or.inl (if_neg e)
      refine ⟨_, _, _, fun w => if w = v then k + 1 else L w, G, S, rfl, h.move hi (by rfl) (by rfl) e2 h.cnt h.sc hL' ?_ (fun _ _ => rfl)
        (fun _ _ => rfl) (fun _ _ => rfl) hsc hinf ?_, ?_⟩
      · intro w
        by_cases e : w = v
        · subst e
          have : ¬ (w < c.g.length ∧ L w = k + 1) := by omega
          rw [if_neg this]
          simp [pend, FPc.isPush, hv, hvn]
        · have : ¬ (v = w) := fun e' => e e'.symm
          simp [pend, FPc.isPush, hv, e, this]
      · refine ⟨hok.row, hok.pos, fun _ => ⟨v, hv, hDv'⟩, ?_, ?_, fun b x hx => (by cases hx)⟩
        · intro a ha w hw hDw
          show (if w = v then k + 1 else L w) = k + 1
          split
          · rfl
          · exact hok.seen a ha w hw hDw
        · intro _ w hw
          have : some v = some w := hv.symm.trans hw
          cases this
          exact if_pos rfl
      · simp [FTask.weight, FPc.rank]
    · rw [if_neg hcond]
      refine ⟨_, _, _, L, G, S, rfl, h.move hi (by rfl) (by rfl) h.lv h.cnt h.sc (fun w => Or.inl rfl) ?_ (fun _ _ => rfl) (fun _ _ => rfl) (fun _ _ => rfl) hsc hinf ?_, ?_⟩
      · intro w; simp [pend, FPc.isPush, FTask.next]
      · exact hok.next hp hv fun _ => (hLn hjk).resolve_left hcond
      · simp [FTask.weight, FPc.rank, FTask.next]; omega
  | push =>
    obtain ⟨v', hv', hDv'⟩ := hcur (by simp [FPc.rank])
    have : some v = some v' := hv.symm.trans hv'
    cases this
    dsimp only
    have hbin : u % c.bins < q2.length := by rw [h.len]; exact Nat.mod_lt _ hb
    have hbe : q2[u % c.bins]? = some q2[u % c.bins] := List.getElem?_eq_getElem hbin
    rw [vget_of_lt hbin, res_bind_ok, vset_of_lt hbin, res_bind_ok]
    refine ⟨_, _, _, L, G, S, rfl, h.move hi (by rfl) (by simp) h.lv h.cnt h.sc (fun w => Or.inl rfl) ?_ (fun _ _ => rfl) (fun _ _ => rfl) (fun _ _ => rfl) hsc hinf ?_, ?_⟩
    · intro w
      rw [count_flatten_set hbe]
      by_cases e : w = v
      · subst e; simp [pend, FPc.isPush, FTask.next, hv]
      · have : ¬ (v = w) := fun e' => e e'.symm
        simp [pend, FPc.isPush, FTask.next, hv, e, this]
    · exact hok.next hp hv fun _ => hknown rfl v hv
    · simp [FTask.weight, FPc.rank, FTask.next]; omega

end step

/-! ### Between rounds -/

/-- The new task of `u`. -/
def newF (g : Rows α) (u : Nat) : FTask := { u := u, row := nbrs g u, pos := 0, pc := .read }

def newB (g : Rows α) (u : Nat) : BTask := { u := u, row := nbrs g u, pos := 0, delta := 0, pc := .scan }

theorem mkF_ok {u : Nat} (h : u < c.g.length) : mkF c u = .ok (newF c.g u) := by
  unfold mkF
  rw [vget_of_lt h, res_bind_ok]
  simp [newF, nbrs, h]

theorem mkB_ok {u : Nat} (h : u < c.g.length) : mkB c u = .ok (newB c.g u) := by
  unfold mkB
  rw [vget_of_lt h, res_bind_ok]
  simp [newB, nbrs, h]

/-- `q` holds the vertices at distance `k`, each once. -/
def Layer (D : Nat → Option Nat) (q : List (List Nat)) (k : Nat) : Prop := q.flatten.Nodup ∧ ∀ v, v ∈ q.flatten ↔ D v = some k

/-- The queues hold the vertices at distance `k - 1`, ..., 0. -/
def Layers (D : Nat → Option Nat) : List (List (List Nat)) → Nat → Prop
  | [], 0 => True
  | q :: l, k + 1 => Layer D q k ∧ Layers D l k
  | _, _ => False

theorem Layers.length {l : List (List (List Nat))} {k : Nat} (h : Layers D l k) : l.length = k := by
  induction l generalizing k with
  | nil => cases k with
    | zero => rfl
    | succ k => exact h.elim
  | cons q l ih => cases k with
    | zero => exact h.elim
    | succ k => rw [List.length_cons, ih h.2]

/-- The arrays before the round from level `k`. -/
structure Pre (c : Args α) (s : Nat) (D : Nat → Option Nat) (k : Nat) (L G : Nat → Nat) (S : Nat → List Bool) (m : Mem) : Prop where
  lv : Vec c.g.length L m.levels
  old : ∀ v j, D v = some j → j ≤ k → L v = j
  fresh : ∀ v < c.g.length, (∀ j, D v = some j → k < j) → L v = c.inf
  cnt : Vec c.g.length (fun v => G v % c.M) m.pc
  gold : ∀ v j, D v = some j → j ≤ k → G v = nw c.g j s v
  gfar : ∀ v, (∀ j, D v = some j → k < j) → G v = 0
  sc : Vec c.g.length S m.succ
  sold : ∀ u j, D u = some j → j < k → S u = (nbrs c.g u).map (isNext D u)
  sfar : ∀ u < c.g.length, (∀ j, D u = some j → k ≤ j) → S u = List.replicate (nbrs c.g u).length false

theorem Pre.start {k : Nat} {L G : Nat → Nat} {S : Nat → List Bool} {m : Mem} (h : Pre c s D k L G S m) (hg : InRange c.g) (hs : s < c.g.length)
    (hD : ∀ v d, D v = some d ↔ IsDist c.g s v d) (hinf : k + 1 < c.inf) {q : List (List Nat)} (hq : Layer D q k) :
    F c s D k L G S (q.flatten.map (newF c.g)) (List.replicate c.bins []) m where
  len := by simp
  us := by
    rw [List.map_map]
    have : FTask.u ∘ newF c.g = id := rfl
    rw [this, List.map_id]; exact hq.1
  mem := by
    intro v
    rw [List.map_map]
    have : FTask.u ∘ newF c.g = id := rfl
    rw [this, List.map_id]; exact hq.2 v
  lv := h.lv
  old := h.old
  fresh := fun v hv hf => Or.inl (h.fresh v hv hf)
  que := by
    intro v
    have h1 : ((List.replicate c.bins ([] : List Nat)).flatten).count v = 0 := by
      rw [List.flatten_replicate_nil]; rfl
    have h2 : ((q.flatten.map (newF c.g)).map (pend v)).sum = 0 := by
      rw [List.map_map, List.sum_eq_zero_iff]
      intro x hx
      obtain ⟨u, -, rfl⟩ := List.mem_map.1 hx
      simp [newF, pend, FPc.isPush]
    rw [h1, h2, if_neg]
    rintro ⟨hv, hL⟩
    by_cases hc : ∃ j, D v = some j ∧ j ≤ k
    · obtain ⟨j, h3, h4⟩ := hc
      have := h.old v j h3 h4
      omega
    · have := h.fresh v hv fun j hj => by
        by_contra hn
        exact hc ⟨j, hj, by omega⟩
      omega
  cnt := h.cnt
  gold := h.gold
  gnew := by
    intro v hv
    have h2 : ((q.flatten.map (newF c.g)).map (contrib c.g s k v)).sum = 0 := by
      rw [List.map_map, List.sum_eq_zero_iff]
      intro x hx
      obtain ⟨u, -, rfl⟩ := List.mem_map.1 hx
      simp [newF, contrib, FTask.added]
    rw [h2]
    exact h.gfar v fun j hj => by rw [hv] at hj; cases hj; omega
  gfar := fun v hv => h.gfar v fun j hj => by have := hv j hj; omega
  sc := h.sc
  sold := h.sold
  scur := by
    intro t ht
    obtain ⟨u, hu, rfl⟩ := List.mem_map.1 ht
    have hu' := (hq.2 u).1 hu
    show S u = _
    rw [h.sfar u (D_lt hg hs hD hu') fun j hj => by rw [hu'] at hj; cases hj; exact Nat.le_refl _]
    simp [bits, newF, FTask.marked]
  sfar := fun u hu hf => h.sfar u hu fun j hj => Nat.le_of_lt (hf j hj)
  tk := by
    intro t ht
    obtain ⟨u, hu, rfl⟩ := List.mem_map.1 ht
    exact ⟨rfl, Nat.zero_le _, fun h => absurd rfl h, fun j hj => absurd hj (Nat.not_lt_zero _), fun h => (by cases h), fun b x hx => (by cases hx)⟩

theorem sum_layer (n : Nat) {l : List Nat} {k : Nat} (hl : l.Nodup) (hm : ∀ v, v ∈ l ↔ D v = some k) (hn : ∀ v, D v = some k → v < n) (f : Nat → Nat) :
    (l.map f).sum = ∑ v ∈ Finset.range n, if D v = some k then f v else 0 := by
  rw [sum_list_count l f n fun x hx => hn x ((hm x).1 hx)]
  apply Finset.sum_congr rfl
  intro v _
  by_cases hv : D v = some k
  · rw [if_pos hv, List.count_eq_one_of_mem hl ((hm v).2 hv), Nat.one_mul]
  · rw [if_neg hv, List.count_eq_zero_of_not_mem fun h => hv ((hm v).1 h), Nat.zero_mul]

theorem F.join {k : Nat} {L G : Nat → Nat} {S : Nat → List Bool} {ts : List FTask} {q2 : List (List Nat)} {m : Mem} (h : F c s D k L G S ts q2 m)
    (hg : InRange c.g) (hs : s < c.g.length) (hD : ∀ v d, D v = some d ↔ IsDist c.g s v d) (hinf : k + 1 < c.inf) (hf : ∀ t ∈ ts, t.finished) :
    Layer D q2 (k + 1) ∧ Pre c s D (k + 1) L G S m := by
  have hset : ∀ v, D v = some (k + 1) → L v = k + 1 := by
    intro v hv
    obtain ⟨u, hu, he⟩ := ((hD v _).1 hv).pred
    obtain ⟨t, ht, rfl⟩ := List.mem_map.1 ((h.mem u).2 ((hD u k).2 hu))
    have hok := h.tk t ht
    have hv' : v ∈ t.row := by rw [hok.row]; exact he
    obtain ⟨j, hj⟩ := List.getElem?_of_mem hv'
    have := (List.getElem?_eq_some_iff.1 hj).1
    have := hf t ht
    unfold FTask.finished at this
    exact hok.seen j (by omega) v hj hv
  have hiff : ∀ v, (v < c.g.length ∧ L v = k + 1) ↔ D v = some (k + 1) := by
    intro v
    constructor
    · rintro ⟨h1, h2⟩
      by_cases hc : ∃ j, D v = some j ∧ j ≤ k
      · obtain ⟨j, h3, h4⟩ := hc
        have := h.old v j h3 h4
        omega
      · rcases h.fresh v h1 fun j hj => by
          by_contra hn
          exact hc ⟨j, hj, by omega⟩ with e | e
        · omega
        · exact e.2
    · intro hv; exact ⟨D_lt hg hs hD hv, hset v hv⟩
  have hcount : ∀ v, q2.flatten.count v = if D v = some (k + 1) then 1 else 0 := by
    intro v
    have h1 := h.que v
    have h2 : (ts.map (pend v)).sum = 0 := by
      rw [List.sum_eq_zero_iff]
      intro x hx
      obtain ⟨t, ht, rfl⟩ := List.mem_map.1 hx
      have := hf t ht
      unfold FTask.finished at this
      unfold pend
      rw [List.getElem?_eq_none this]; simp
    rw [h2, Nat.add_zero] at h1
    rw [h1]
    simp only [hiff]
  refine ⟨⟨?_, ?_⟩, h.lv, ?_, ?_, h.cnt, ?_, ?_, h.sc, ?_, ?_⟩
  · rw [List.nodup_iff_count]
    intro v
    rw [hcount]; split <;> omega
  · intro v
    rw [← List.count_pos_iff, hcount]
    split
    · rename_i e; simp [e]
    · rename_i e; simp [e]
  · intro v j hv hj
    rcases Nat.lt_or_ge k j with hl | hl
    · obtain rfl : j = k + 1 := by omega
      exact hset v hv
    · exact h.old v j hv hl
  · intro v hvn hv
    rcases h.fresh v hvn fun j hj => by have := hv j hj; omega with e | e
    · exact e
    · have := hv _ e.2; omega
  · intro v j hv hj
    rcases Nat.lt_or_ge k j with hl | hl
    · obtain rfl : j = k + 1 := by omega
      rw [h.gnew v hv, nw_last hg]
      have e : ts.map (contrib c.g s k v) = (ts.map FTask.u).map fun u => mult c.g u v * nw c.g k s u := by
        rw [List.map_map]
        apply List.map_congr_left
        intro t ht
        have h1 := hf t ht
        unfold FTask.finished at h1
        have h2 : t.row.length ≤ t.added := by
          unfold FTask.added; split <;> omega
        simp only [contrib, Function.comp]
        rw [List.take_of_length_le h2, (h.tk t ht).row]; rfl
      rw [e, sum_layer c.g.length h.us h.mem fun v hv => D_lt hg hs hD hv]
      apply Finset.sum_congr rfl
      intro u hu
      by_cases hDu : D u = some k
      · rw [if_pos hDu, Nat.mul_comm]
      · rw [if_neg hDu]
        by_contra hne
        have h1 : 0 < nw c.g k s u := Nat.pos_of_ne_zero fun e => hne (by rw [e, Nat.zero_mul])
        have h2 : 0 < mult c.g u v := Nat.pos_of_ne_zero fun e => hne (by rw [e, Nat.mul_zero])
        have hw := (nw_pos hg).1 h1
        obtain ⟨d, hd⟩ := Reachable.exists_dist ⟨_, hw⟩
        have h3 := hd.2 _ hw
        have h4 := ((hD v _).1 hv).2 _ (.snoc hd.1 (mult_pos.1 h2))
        obtain rfl : d = k := by omega
        exact hDu ((hD u d).2 hd)
    · exact h.gold v j hv hl
  · exact fun v hv => h.gfar v hv
  · intro u j hj hlt
    rcases Nat.lt_or_ge j k with hl | hl
    · exact h.sold u j hj hl
    · obtain rfl : j = k := by omega
      obtain ⟨t, ht, rfl⟩ := List.mem_map.1 ((h.mem u).2 hj)
      have h1 := hf t ht
      unfold FTask.finished at h1
      have h2 : t.row.length ≤ t.marked := by
        unfold FTask.marked; split <;> omega
      rw [h.scur t ht, (h.tk t ht).row, bits, List.take_of_length_le (by rw [← (h.tk t ht).row]; exact h2), (h.tk t ht).row.symm]
      have : t.row.length - t.marked = 0 := by omega
      rw [this]; simp
  · intro u hun hu
    exact h.sfar u hun fun j hj => by have := hu j hj; omega

end NW.BrandesPar
