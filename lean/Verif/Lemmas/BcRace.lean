import Verif.Model.BcRace
import Verif.Lemmas.BrandesBack

/-! # Lemmas: the forward rounds of `bc2_v2` when every vertex has at most one shortest path -/

namespace NW.BcRace
open Spec
open NW.Brandes (Vec)
open NW.BrandesPar (nsum_map_set sum_layer)

variable {α : Type}

def ETask.edge (t : ETask) : Nat × Nat := (t.v, t.w)

/-- The depth of `w` is known to be set. -/
def EPc.knows : EPc → Bool
  | .read => false
  | .cas => false
  | _ => true

/-- `w` is known to be on the next level. -/
def EPc.isNew : EPc → Bool
  | .read => false
  | .check => false
  | .done => false
  | _ => true

/-- The count of `w` has been raised (or need not be). -/
def EPc.stored : EPc → Bool
  | .link => true
  | .done => true
  | _ => false

def EPc.rank : EPc → Nat
  | .read => 9
  | .cas => 8
  | .push => 7
  | .bump => 6
  | .check => 5
  | .load => 4
  | .load2 _ => 3
  | .store _ => 2
  | .link => 1
  | .done => 0

def ETask.weight (t : ETask) : Nat := t.pc.rank

/-- 1 if the task is about to put `w` in the list of the next level. -/
def pend (w : Nat) (t : ETask) : Nat := if t.pc = .push ∧ t.w = w then 1 else 0

/-- 1 if the task is about to increment `count`. -/
def bumping (t : ETask) : Nat := if t.pc = .bump then 1 else 0

/-- What the task has added to the count of `w`. -/
def contrib (g : Rows α) (s k w : Nat) (t : ETask) : Nat := if t.w = w ∧ t.pc.stored then nw g k s t.v else 0

/-- What the task will have added to the count of `w`. -/
def full (g : Rows α) (s k w : Nat) (t : ETask) : Nat := if t.w = w then nw g k s t.v else 0

theorem contrib_le (g : Rows α) (s k w : Nat) (t : ETask) : contrib g s k w t ≤ full g s k w t := by
  unfold contrib full
  by_cases e : t.w = w
  · rw [if_pos e]; split <;> omega
  · rw [if_neg e, if_neg fun h => e h.1]

/-- 1 if the task has put `u` in `P[w]`. -/
def linked (u w : Nat) (t : ETask) : Nat := if t.edge = (u, w) ∧ t.pc = .done then 1 else 0

/-- The edges that leave the vertices of `q`. -/
def edgesOf (g : Rows α) (q : List Nat) : List (Nat × Nat) := q.flatMap fun u => (nbrs g u).map fun w => (u, w)

structure TOk (c : Args α) (s : Nat) (D : Nat → Option Nat) (k : Nat) (L : Nat → Nat) (t : ETask) : Prop where
  cur : t.pc.isNew = true → D t.w = some (k + 1)
  known : t.pc.knows = true → D t.w = some (k + 1) → L t.w = k + 1
  val2 : ∀ x, t.pc = .load2 x → x = nw c.g k s t.v
  val : ∀ y, t.pc = .store y → y = nw c.g k s t.v

/-- `q` holds the vertices at distance `k`, each once. -/
def Lay (D : Nat → Option Nat) (q : List Nat) (k : Nat) : Prop := q.Nodup ∧ ∀ v, v ∈ q ↔ D v = some k

/-- The state in the forward round from level `k`. -/
structure F (c : Args α) (s : Nat) (D : Nat → Option Nat) (k : Nat) (L G : Nat → Nat) (Q SS : Nat → List Nat) (ts : List ETask) (m : Mem) : Prop where
  edges : ts.map ETask.edge = edgesOf c.g (SS k)
  lay : ∀ j ≤ k, Lay D (SS j) j
  lv : Vec c.g.length L m.depths
  old : ∀ v j, D v = some j → j ≤ k → L v = j
  fresh : ∀ v < c.g.length, (∀ j, D v = some j → k < j) → L v = c.inf ∨ (L v = k + 1 ∧ D v = some (k + 1))
  sl : Vec (k + 2) SS m.S
  que : ∀ v, (SS (k + 1)).count v + (ts.map (pend v)).sum = if v < c.g.length ∧ L v = k + 1 then 1 else 0
  num : m.count + (ts.map bumping).sum = (SS (k + 1)).length
  cnt : Vec c.g.length G m.pc
  gold : ∀ v j, D v = some j → j ≤ k → G v = nw c.g j s v
  gnew : ∀ v, D v = some (k + 1) → G v = (ts.map (contrib c.g s k v)).sum
  gfar : ∀ v, (∀ j, D v = some j → k + 1 < j) → G v = 0
  pv : Vec c.g.length Q m.P
  pold : ∀ w j, D w = some (j + 1) → j < k → ∀ u, (Q w).count u = if D u = some j then mult c.g u w else 0
  pnew : ∀ w, D w = some (k + 1) → ∀ u, (Q w).count u = (ts.map (linked u w)).sum
  pfar : ∀ w < c.g.length, (∀ j, D w = some j → k + 1 < j) → Q w = []
  tk : ∀ t ∈ ts, TOk c s D k L t

variable {c : Args α} {s : Nat} {D : Nat → Option Nat}

theorem D_lt (hg : InRange c.g) (hs : s < c.g.length) (hD : ∀ v d, D v = some d ↔ IsDist c.g s v d) {v d : Nat} (h : D v = some d) : v < c.g.length :=
  ((hD v d).1 h).1.lt hg hs

theorem D_next (hD : ∀ v d, D v = some d ↔ IsDist c.g s v d) {u v k : Nat} (hu : D u = some k) (he : v ∈ nbrs c.g u) : ∃ j, D v = some j ∧ j ≤ k + 1 := by
  have hw : Walk c.g s v (k + 1) := .snoc ((hD u k).1 hu).1 he
  obtain ⟨j, hj⟩ := Reachable.exists_dist ⟨_, hw⟩
  exact ⟨j, (hD v j).2 hj, hj.2 _ hw⟩

theorem TOk.mono {k : Nat} {L L' : Nat → Nat} {t : ETask} (h : TOk c s D k L t) (hL : ∀ w, L w = k + 1 → L' w = k + 1) : TOk c s D k L' t :=
  { h with known := fun hk hd => hL _ (h.known hk hd) }

theorem sum_edges (g : Rows α) (q : List Nat) (f : Nat × Nat → Nat) : ((edgesOf g q).map f).sum = (q.map fun u => ((nbrs g u).map fun w => f (u, w)).sum).sum := by
  induction q with
  | nil => rfl
  | cons u q ih =>
    have : edgesOf g (u :: q) = ((nbrs g u).map fun w => (u, w)) ++ edgesOf g q := rfl
    rw [this, List.map_append, List.sum_append, ih, List.map_cons, List.sum_cons, List.map_map]
    rfl

theorem sum_ind (l : List Nat) (w x : Nat) : (l.map fun y => if y = w then x else 0).sum = l.count w * x := by
  induction l with
  | nil => simp
  | cons a l ih =>
    rw [List.map_cons, List.sum_cons, ih]
    by_cases e : a = w
    · subst e; rw [if_pos rfl, List.count_cons_self, Nat.add_mul]; omega
    · rw [if_neg e, List.count_cons_of_ne e, Nat.zero_add]

/-- The counts of the walks that go on over the edges from a level. -/
theorem nw_edges (hg : InRange c.g) (hs : s < c.g.length) (hD : ∀ v d, D v = some d ↔ IsDist c.g s v d) {k : Nat} {q : List Nat} (hq : Lay D q k) {w : Nat} (hw : D w = some (k + 1)) :
    ((edgesOf c.g q).map fun e => if e.2 = w then nw c.g k s e.1 else 0).sum = nw c.g (k + 1) s w := by
  rw [sum_edges, nw_last hg]
  simp only [sum_ind]
  rw [sum_layer c.g.length hq.1 hq.2 fun v hv => D_lt hg hs hD hv]
  apply Finset.sum_congr rfl
  intro u hu
  by_cases hDu : D u = some k
  · rw [if_pos hDu, Nat.mul_comm]; rfl
  · rw [if_neg hDu]
    by_contra hne
    have h1 : 0 < nw c.g k s u := Nat.pos_of_ne_zero fun e => hne (by rw [e, Nat.zero_mul])
    have h2 : 0 < mult c.g u w := Nat.pos_of_ne_zero fun e => hne (by rw [e, Nat.mul_zero])
    have hwk := (nw_pos hg).1 h1
    obtain ⟨d, hd⟩ := Reachable.exists_dist ⟨_, hwk⟩
    have h3 := hd.2 _ hwk
    have h4 := ((hD w _).1 hw).2 _ (.snoc hd.1 (mult_pos.1 h2))
    obtain rfl : d = k := by omega
    exact hDu ((hD u d).2 hd)

section step
variable {k : Nat} {L G : Nat → Nat} {Q SS : Nat → List Nat} {ts : List ETask} {m : Mem}

theorem map_edge_set {i : Nat} {t t' : ETask} (hi : ts[i]? = some t) (hu : t'.edge = t.edge) : (ts.set i t').map ETask.edge = ts.map ETask.edge := by
  rw [List.map_set, hu]
  apply List.ext_getElem? fun j => ?_
  rw [List.getElem?_set]
  split
  · rename_i e; subst e
    split
    · simp [hi]
    · rename_i h1; rw [List.getElem?_eq_none (by simpa using h1)]
  · rfl

theorem F.src (h : F c s D k L G Q SS ts m) {t : ETask} (ht : t ∈ ts) : D t.v = some k ∧ t.w ∈ nbrs c.g t.v := by
  have h1 : t.edge ∈ edgesOf c.g (SS k) := by rw [← h.edges]; exact List.mem_map_of_mem ht
  obtain ⟨u, hu, h2⟩ := List.mem_flatMap.1 h1
  obtain ⟨w, hw, e⟩ := List.mem_map.1 h2
  unfold ETask.edge at e
  cases e
  exact ⟨((h.lay k (Nat.le_refl _)).2 _).1 hu, hw⟩

/-- The only task that deals with `w` is the one that is about to. -/
theorem F.alone (h : F c s D k L G Q SS ts m) (hg : InRange c.g) (hs : s < c.g.length) (hD : ∀ v d, D v = some d ↔ IsDist c.g s v d)
    (hone : ∀ v d, D v = some d → nw c.g d s v ≤ 1) {i : Nat} {t : ETask} (hi : ts[i]? = some t) (hn : D t.w = some (k + 1)) (hns : t.pc.stored = false) :
    (ts.map (contrib c.g s k t.w)).sum = 0 := by
  have h1 := nw_edges hg hs hD (h.lay k (Nat.le_refl _)) hn
  rw [← h.edges, List.map_map] at h1
  have h1 : (ts.map (full c.g s k t.w)).sum = nw c.g (k + 1) s t.w := h1
  have h2 := hone _ _ hn
  have h3 : 0 < nw c.g k s t.v := (nw_pos hg).2 ((hD _ _).1 (h.src (List.mem_of_getElem? hi)).1).1
  have key : ∀ (l : List ETask) (i : Nat), l[i]? = some t → (l.map (contrib c.g s k t.w)).sum + nw c.g k s t.v ≤
      (l.map (full c.g s k t.w)).sum := by
    have hle : ∀ l : List ETask, (l.map (contrib c.g s k t.w)).sum ≤ (l.map (full c.g s k t.w)).sum := by
      intro l
      induction l with
      | nil => simp
      | cons a l ih =>
        rw [List.map_cons, List.sum_cons, List.map_cons, List.sum_cons]
        have := contrib_le c.g s k t.w a
        omega
    intro l
    induction l with
    | nil => intro i hi; simp at hi
    | cons a l ih =>
      intro i hi
      rw [List.map_cons, List.sum_cons, List.map_cons, List.sum_cons]
      cases i with
      | zero =>
        obtain rfl : a = t := by simpa using hi
        have := hle l
        have e1 : contrib c.g s k a.w a = 0 := by simp [contrib, hns]
        have e2 : full c.g s k a.w a = nw c.g k s a.v := by simp [full]
        omega
      | succ i =>
        have h4 := ih i (by simpa using hi)
        have := contrib_le c.g s k t.w a
        omega
  have := key ts i hi
  omega

/-- When a task moves.  The hypotheses say how the arrays change with it. -/
theorem F.move (h : F c s D k L G Q SS ts m) {i : Nat} {t t' : ETask} (hi : ts[i]? = some t) (hu : t'.edge = t.edge) {L' G' : Nat → Nat} {Q' SS' : Nat → List Nat} {m' : Mem}
    (hlv : Vec c.g.length L' m'.depths) (hcnt : Vec c.g.length G' m'.pc) (hpv : Vec c.g.length Q' m'.P) (hsl : Vec (k + 2) SS' m'.S) (hinf : k + 1 < c.inf)
    (hL : ∀ w, L' w = L w ∨ (L w = c.inf ∧ L' w = k + 1 ∧ D w = some (k + 1))) (hSS : ∀ j ≤ k, SS' j = SS j)
    (hq : ∀ v, (SS' (k + 1)).count v + pend v t' + (if v < c.g.length ∧ L v = k + 1 then 1 else 0) = (SS (k + 1)).count v + pend v t + if v < c.g.length ∧ L' v = k + 1 then 1 else 0)
    (hnum : m'.count + bumping t' + (SS (k + 1)).length = m.count + bumping t + (SS' (k + 1)).length)
    (hG : ∀ v, D v ≠ some (k + 1) → G' v = G v)
    (hc : ∀ v, D v = some (k + 1) → G' v + contrib c.g s k v t = G v + contrib c.g s k v t')
    (hQ : ∀ w, D w ≠ some (k + 1) → Q' w = Q w)
    (hP : ∀ w, D w = some (k + 1) → ∀ u, (Q' w).count u + linked u w t = (Q w).count u + linked u w t')
    (hok : TOk c s D k L' t') : F c s D k L' G' Q' SS' (ts.set i t') m' := by
  have hmap := map_edge_set hi hu
  have hmono : ∀ w, L w = k + 1 → L' w = k + 1 := by
    intro w hw
    rcases hL w with e | ⟨e, -, -⟩
    · rw [e, hw]
    · omega
  refine ⟨by rw [hmap, hSS k (Nat.le_refl _)]; exact h.edges, fun j hj => by rw [hSS j hj]; exact h.lay j hj, hlv, ?_, ?_, hsl, ?_, ?_, hcnt, ?_, ?_, ?_, hpv, ?_, ?_, ?_, ?_⟩
  · intro v j hv hj
    rcases hL v with e | ⟨-, -, e⟩
    · rw [e]; exact h.old v j hv hj
    · rw [hv] at e; cases e; omega
  · intro v hvn hv
    rcases hL v with e | ⟨-, e1, e2⟩
    · rw [e]; exact h.fresh v hvn hv
    · exact Or.inr ⟨e1, e2⟩
  · intro v
    have h1 := nsum_map_set (pend v) (y := t') hi
    have h2 := h.que v
    have h3 := hq v
    omega
  · have h1 := nsum_map_set bumping (y := t') hi
    have h2 := h.num
    omega
  · intro v j hv hj
    rw [hG v (by rw [hv]; simp; omega)]; exact h.gold v j hv hj
  · intro v hv
    have h1 := nsum_map_set (contrib c.g s k v) (y := t') hi
    have h2 := h.gnew v hv
    have h3 := hc v hv
    omega
  · intro v hv
    rw [hG v fun e => by have := hv _ e; omega]; exact h.gfar v hv
  · intro w j hw hj u
    rw [hQ w (by rw [hw]; simp; omega)]; exact h.pold w j hw hj u
  · intro w hw u
    have h1 := nsum_map_set (linked u w) (y := t') hi
    have h2 := h.pnew w hw u
    have h3 := hP w hw u
    omega
  · intro w hwn hw
    rw [hQ w fun e => by have := hw _ e; omega]; exact h.pfar w hwn hw
  · intro x hx
    obtain ⟨j, hj⟩ := List.getElem?_of_mem hx
    rcases getElem?_set_cases hj with ⟨-, rfl⟩ | ⟨-, hj'⟩
    · exact hok
    · exact (h.tk x (List.mem_of_getElem? hj')).mono hmono

theorem eTask_ok (hg : InRange c.g) (hs : s < c.g.length) (hD : ∀ v d, D v = some d ↔ IsDist c.g s v d) (hinf : k + 1 < c.inf) (hM : 1 < c.M)
    (hone : ∀ v d, D v = some d → nw c.g d s v ≤ 1) (h : F c s D k L G Q SS ts m) {i : Nat} {t : ETask} (hi : ts[i]? = some t) (hf : t.pc ≠ .done) :
    ∃ m' t' L' G' Q' SS', eTask c k (k + 1) m t = .ok (m', t') ∧ F c s D k L' G' Q' SS' (ts.set i t') m' ∧ t'.weight < t.weight := by
  have ht : t ∈ ts := List.mem_of_getElem? hi
  obtain ⟨hu, hvm⟩ := h.src ht
  have hun : t.v < c.g.length := D_lt hg hs hD hu
  have hok := h.tk t ht
  obtain ⟨j, hDw, hj⟩ := D_next hD hu hvm
  have hwn : t.w < c.g.length := D_lt hg hs hD hDw
  have hLv : j ≤ k → L t.w = j := fun hjk => h.old _ j hDw hjk
  have hLn : j = k + 1 → L t.w = c.inf ∨ L t.w = k + 1 := fun e => by
    rcases h.fresh _ hwn (by intro j' hj'; rw [hDw] at hj'; cases hj'; omega) with e | e
    · exact Or.inl e
    · exact Or.inr e.1
  have halone := h.alone hg hs hD hone hi
  have hcur := hok.cur
  have hknown := hok.known
  have hval := hok.val
  have hval2 := hok.val2
  have hgn := h.gnew
  obtain ⟨v, w, pc⟩ := t
  simp only at hu hun hvm hDw hwn hLv hLn hcur hknown hval hval2 halone hf
  unfold eTask
  cases pc with
  | read =>
    dsimp only
    rw [h.lv.vget hwn, res_bind_ok]
    by_cases hcond : L w = c.inf
    · have hjk : j = k + 1 := by
        rcases Nat.lt_or_ge k j with hl | hl
        · omega
        · have := hLv hl; omega
      rw [if_pos hcond]
      refine ⟨_, _, L, G, Q, SS, rfl, h.move hi (by rfl) h.lv h.cnt h.pv h.sl hinf (fun w => Or.inl rfl) (fun _ _ => rfl) ?_ ?_ (fun _ _ => rfl) ?_ (fun _ _ => rfl) ?_ ?_, ?_⟩
      · intro x; simp [pend]
      · simp [bumping]
      · intro x _; simp [contrib, EPc.stored]
      · intro x _ u; simp [linked]
      · exact ⟨fun _ => hjk ▸ hDw, fun hk => (by cases hk), fun x hx => (by cases hx), fun x hx => (by cases hx)⟩
      · simp [ETask.weight, EPc.rank]
    · rw [if_neg hcond]
      refine ⟨_, _, L, G, Q, SS, rfl, h.move hi (by rfl) h.lv h.cnt h.pv h.sl hinf (fun w => Or.inl rfl) (fun _ _ => rfl) ?_ ?_ (fun _ _ => rfl) ?_ (fun _ _ => rfl) ?_ ?_, ?_⟩
      · intro x; simp [pend]
      · simp [bumping]
      · intro x _; simp [contrib, EPc.stored]
      · intro x _ u; simp [linked]
      · refine ⟨fun hk => (by cases hk), ?_, fun x hx => (by cases hx), fun x hx => (by cases hx)⟩
        intro _ hd
        rw [hDw] at hd; cases hd
        exact (hLn rfl).resolve_left hcond
      · simp [ETask.weight, EPc.rank]
  | cas =>
    have hDw' := hcur rfl
    have hjk : j = k + 1 := by rw [hDw] at hDw'; cases hDw'; rfl
    dsimp only
    rw [h.lv.vget hwn, res_bind_ok]
    by_cases hcond : L w = c.inf
    · rw [if_pos hcond]
      obtain ⟨e1, e2⟩ := h.lv.vset hwn (k + 1)
      rw [e1, res_bind_ok]
      have hL' : ∀ x, (fun x => if x = w then k + 1 else L x) x = L x ∨ (L x = c.inf ∧ (fun x => if x = w then k + 1 else L x) x = k + 1 ∧ D x = some (k + 1)) := by
        intro x
        by_cases e : x = w
        · subst e; exact Or.inr ⟨hcond, if_pos rfl, hDw'⟩
        · exact Or.inl (if_neg e)
      refine ⟨_, _, fun x => if x = w then k + 1 else L x, G, Q, SS, rfl, h.move hi (by rfl) e2 h.cnt h.pv h.sl hinf hL' (fun _ _ => rfl) ?_ ?_ (fun _ _ => rfl) ?_ (fun _ _ => rfl) ?_ ?_, ?_⟩
      · intro x
        by_cases e : x = w
        · subst e
          have : ¬ (x < c.g.length ∧ L x = k + 1) := by omega
          rw [if_neg this]
          simp [pend, hwn]
        · have : ¬ (w = x) := fun e' => e e'.symm
          simp [pend, e, this]
      · simp [bumping]
      · intro x _; simp [contrib, EPc.stored]
      · intro x _ u; simp [linked]
      · exact ⟨fun _ => hDw', fun _ _ => if_pos rfl, fun x hx => (by cases hx), fun x hx => (by cases hx)⟩
      · simp [ETask.weight, EPc.rank]
    · rw [if_neg hcond]
      refine ⟨_, _, L, G, Q, SS, rfl, h.move hi (by rfl) h.lv h.cnt h.pv h.sl hinf (fun w => Or.inl rfl) (fun _ _ => rfl) ?_ ?_ (fun _ _ => rfl) ?_ (fun _ _ => rfl) ?_ ?_, ?_⟩
      · intro x; simp [pend]
      · simp [bumping]
      · intro x _; simp [contrib, EPc.stored]
      · intro x _ u; simp [linked]
      · exact ⟨fun hk => (by cases hk), fun _ _ => (hLn hjk).resolve_left hcond, fun x hx => (by cases hx), fun x hx => (by cases hx)⟩
      · simp [ETask.weight, EPc.rank]
  | push =>
    have hDw' := hcur rfl
    dsimp only
    rw [h.sl.vget (Nat.lt_succ_self _), res_bind_ok]
    obtain ⟨e1, e2⟩ := h.sl.vset (Nat.lt_succ_self (k + 1)) (SS (k + 1) ++ [w])
    rw [e1, res_bind_ok]
    refine ⟨_, _, L, G, Q, fun x => if x = k + 1 then SS (k + 1) ++ [w] else SS x, rfl, h.move hi (by rfl) h.lv h.cnt h.pv e2 hinf (fun w => Or.inl rfl) ?_ ?_ ?_ (fun _ _ => rfl) ?_
      (fun _ _ => rfl) ?_ ?_, ?_⟩
    · intro j hj; exact if_neg (by omega)
    · intro x
      simp only [if_true]
      rw [List.count_append, List.count_singleton]
      by_cases e : w = x
      · subst e; simp [pend]
      · have : (w == x) = false := by simpa using e
        simp [pend, this, e]
    · simp [bumping]; omega
    · intro x _; simp [contrib, EPc.stored]
    · intro x _ u; simp [linked]
    · exact ⟨fun _ => hDw', fun _ => hknown rfl, fun x hx => (by cases hx), fun x hx => (by cases hx)⟩
    · simp [ETask.weight, EPc.rank]
  | bump =>
    have hDw' := hcur rfl
    dsimp only
    refine ⟨_, _, L, G, Q, SS, rfl, h.move hi (by rfl) h.lv h.cnt h.pv h.sl hinf (fun w => Or.inl rfl) (fun _ _ => rfl) ?_ ?_ (fun _ _ => rfl) ?_ (fun _ _ => rfl) ?_ ?_, ?_⟩
    · intro x; simp [pend]
    · simp [bumping]
    · intro x _; simp [contrib, EPc.stored]
    · intro x _ u; simp [linked]
    · exact ⟨fun hk => (by cases hk), fun _ => hknown rfl, fun x hx => (by cases hx), fun x hx => (by cases hx)⟩
    · simp [ETask.weight, EPc.rank]
  | check =>
    dsimp only
    rw [h.lv.vget hwn, res_bind_ok]
    by_cases hcond : L w = k + 1
    · rw [if_pos hcond]
      have hjk : j = k + 1 := by
        rcases Nat.lt_or_ge k j with hl | hl
        · omega
        · have := hLv hl; omega
      refine ⟨_, _, L, G, Q, SS, rfl, h.move hi (by rfl) h.lv h.cnt h.pv h.sl hinf (fun w => Or.inl rfl) (fun _ _ => rfl) ?_ ?_ (fun _ _ => rfl) ?_ (fun _ _ => rfl) ?_ ?_, ?_⟩
      · intro x; simp [pend]
      · simp [bumping]
      · intro x _; simp [contrib, EPc.stored]
      · intro x _ u; simp [linked]
      · exact ⟨fun _ => hjk ▸ hDw, fun _ => hknown rfl, fun x hx => (by cases hx), fun x hx => (by cases hx)⟩
      · simp [ETask.weight, EPc.rank]
    · rw [if_neg hcond]
      have hjk : j ≤ k := by
        rcases Nat.lt_or_ge k j with hl | hl
        · obtain rfl : j = k + 1 := by omega
          exact absurd (hknown rfl hDw) hcond
        · exact hl
      have hne : ∀ x, D x = some (k + 1) → ¬ w = x := by rintro x hx rfl; rw [hDw] at hx; cases hx; omega
      refine ⟨_, _, L, G, Q, SS, rfl, h.move hi (by rfl) h.lv h.cnt h.pv h.sl hinf (fun w => Or.inl rfl) (fun _ _ => rfl) ?_ ?_ (fun _ _ => rfl) ?_ (fun _ _ => rfl) ?_ ?_, ?_⟩
      · intro x; simp [pend]
      · simp [bumping]
      · intro x hx; simp [contrib, hne x hx]
      · intro x hx u; simp [linked, ETask.edge, hne x hx]
      · exact ⟨fun hk => (by cases hk), fun _ => hknown rfl, fun x hx => (by cases hx), fun x hx => (by cases hx)⟩
      · simp [ETask.weight, EPc.rank]
  | load =>
    dsimp only
    rw [h.cnt.vget hun, res_bind_ok]
    refine ⟨_, _, L, G, Q, SS, rfl, h.move hi (by rfl) h.lv h.cnt h.pv h.sl hinf (fun w => Or.inl rfl) (fun _ _ => rfl) ?_ ?_ (fun _ _ => rfl) ?_ (fun _ _ => rfl) ?_ ?_, ?_⟩
    · intro x; simp [pend]
    · simp [bumping]
    · intro x _; simp [contrib, EPc.stored]
    · intro x _ u; simp [linked]
    · refine ⟨fun _ => hcur rfl, fun _ => hknown rfl, ?_, fun x hx => (by cases hx)⟩
      intro x hx
      cases hx
      exact h.gold v k hu (Nat.le_refl _)
    · simp [ETask.weight, EPc.rank]
  | load2 x =>
    have hDw' := hcur rfl
    dsimp only
    rw [h.cnt.vget hwn, res_bind_ok]
    refine ⟨_, _, L, G, Q, SS, rfl, h.move hi (by rfl) h.lv h.cnt h.pv h.sl hinf (fun w => Or.inl rfl) (fun _ _ => rfl) ?_ ?_ (fun _ _ => rfl) ?_ (fun _ _ => rfl) ?_ ?_, ?_⟩
    · intro x; simp [pend]
    · simp [bumping]
    · intro x _; simp [contrib, EPc.stored]
    · intro x _ u; simp [linked]
    · refine ⟨fun _ => hcur rfl, fun _ => hknown rfl, fun x hx => (by cases hx), ?_⟩
      intro y hy
      cases hy
      rw [hval2 x rfl, hgn w hDw', halone hDw' rfl, Nat.zero_add, Nat.mod_eq_of_lt (by have := hone v k hu; omega)]
    · simp [ETask.weight, EPc.rank]
  | store y =>
    have hDw' := hcur rfl
    dsimp only
    obtain ⟨e1, e2⟩ := h.cnt.vset hwn y
    rw [e1, res_bind_ok]
    refine ⟨_, _, L, fun x => if x = w then y else G x, Q, SS, rfl, h.move hi (by rfl) h.lv e2 h.pv h.sl hinf (fun w => Or.inl rfl) (fun _ _ => rfl) ?_ ?_ ?_ ?_ (fun _ _ => rfl) ?_ ?_, ?_⟩
    · intro x; simp [pend]
    · simp [bumping]
    · intro x hx; exact if_neg (by rintro rfl; exact hx hDw')
    · intro x hx
      by_cases e : x = w
      · subst e
        have h1 := hgn x hx
        rw [halone hDw' rfl] at h1
        rw [if_pos rfl, h1, hval y rfl]
        simp [contrib, EPc.stored]
      · have : ¬ w = x := fun e' => e e'.symm
        simp [contrib, e, this]
    · intro x _ u; simp [linked]
    · exact ⟨fun _ => hDw', fun _ => hknown rfl, fun x hx => (by cases hx), fun x hx => (by cases hx)⟩
    · simp [ETask.weight, EPc.rank]
  | link =>
    have hDw' := hcur rfl
    dsimp only
    rw [h.pv.vget hwn, res_bind_ok]
    obtain ⟨e1, e2⟩ := h.pv.vset hwn (Q w ++ [v])
    rw [e1, res_bind_ok]
    refine ⟨_, _, L, G, fun x => if x = w then Q w ++ [v] else Q x, SS, rfl, h.move hi (by rfl) h.lv h.cnt e2 h.sl hinf (fun w => Or.inl rfl) (fun _ _ => rfl) ?_ ?_ (fun _ _ => rfl) ?_ ?_ ?_ ?_, ?_⟩
    · intro x; simp [pend]
    · simp [bumping]
    · intro x _; simp [contrib, EPc.stored]
    · intro x hx; exact if_neg (by rintro rfl; exact hx hDw')
    · intro x hx u
      by_cases e : x = w
      · subst e
        simp only [if_true]
        rw [List.count_append, List.count_singleton]
        by_cases e' : v = u
        · subst e'; simp [linked, ETask.edge]
        · have : (v == u) = false := by simpa using e'
          simp [linked, ETask.edge, this, e']
      · have : ¬ w = x := fun e' => e e'.symm
        simp [linked, ETask.edge, e, this]
    · exact ⟨fun hk => (by cases hk), fun _ => hknown rfl, fun x hx => (by cases hx), fun x hx => (by cases hx)⟩
    · simp [ETask.weight, EPc.rank]
  | done => exact absurd rfl hf

end step

/-! ### Between rounds -/

/-- The new tasks of the edges that leave `u`. -/
def newE (g : Rows α) (u : Nat) : List ETask := (nbrs g u).map fun w => { v := u, w := w, pc := .read }

theorem mkE_ok {u : Nat} (h : u < c.g.length) : mkE c u = .ok (newE c.g u) := by
  unfold mkE
  rw [vget_of_lt h, res_bind_ok]
  simp [newE, nbrs, h]

theorem newE_edges (g : Rows α) (q : List Nat) : ((q.map (newE g)).flatten).map ETask.edge = edgesOf g q := by
  induction q with
  | nil => rfl
  | cons u q ih =>
    rw [List.map_cons, List.flatten_cons, List.map_append, ih]
    simp [edgesOf, newE, ETask.edge, Function.comp_def]

theorem mem_newE {g : Rows α} {q : List Nat} {t : ETask} (h : t ∈ (q.map (newE g)).flatten) : t.pc = .read := by
  obtain ⟨l, h1, h2⟩ := List.mem_flatten.1 h
  obtain ⟨u, -, rfl⟩ := List.mem_map.1 h1
  obtain ⟨w, -, rfl⟩ := List.mem_map.1 h2
  rfl

/-- The arrays before the round from level `k`. -/
structure Pre (c : Args α) (s : Nat) (D : Nat → Option Nat) (k : Nat) (L G : Nat → Nat) (Q SS : Nat → List Nat) (m : Mem) : Prop where
  lay : ∀ j ≤ k, Lay D (SS j) j
  lv : Vec c.g.length L m.depths
  old : ∀ v j, D v = some j → j ≤ k → L v = j
  fresh : ∀ v < c.g.length, (∀ j, D v = some j → k < j) → L v = c.inf
  sl : Vec (k + 2) SS m.S
  top : SS (k + 1) = []
  cnt : Vec c.g.length G m.pc
  gold : ∀ v j, D v = some j → j ≤ k → G v = nw c.g j s v
  gfar : ∀ v, (∀ j, D v = some j → k < j) → G v = 0
  pv : Vec c.g.length Q m.P
  pold : ∀ w j, D w = some (j + 1) → j < k → ∀ u, (Q w).count u = if D u = some j then mult c.g u w else 0
  pfar : ∀ w < c.g.length, (∀ j, D w = some j → k < j) → Q w = []

theorem sum_zero {τ : Type} {l : List τ} {f : τ → Nat} (h : ∀ x ∈ l, f x = 0) : (l.map f).sum = 0 := by
  rw [List.sum_eq_zero_iff]
  intro x hx
  obtain ⟨u, hu, rfl⟩ := List.mem_map.1 hx
  exact h u hu

theorem Pre.start {k : Nat} {L G : Nat → Nat} {Q SS : Nat → List Nat} {m : Mem} (h : Pre c s D k L G Q SS m) (hg : InRange c.g) (hs : s < c.g.length)
    (hD : ∀ v d, D v = some d ↔ IsDist c.g s v d) (hinf : k + 1 < c.inf) :
    enter c m k (k + 1) = .ok (.fwd ((SS k).map (newE c.g)).flatten { m with count := 0 } k (k + 1)) ∧
      F c s D k L G Q SS ((SS k).map (newE c.g)).flatten { m with count := 0 } := by
  constructor
  · unfold enter
    rw [h.sl.vget (by omega), res_bind_ok, mapM_ok_of_forall (g := newE c.g) fun u hu => mkE_ok (D_lt hg hs hD (((h.lay k (Nat.le_refl _)).2 u).1 hu)), res_bind_ok]
    rfl
  · refine ⟨newE_edges _ _, h.lay, h.lv, h.old, fun v hv hf => Or.inl (h.fresh v hv hf), h.sl, ?_, ?_, h.cnt, h.gold, ?_, ?_, h.pv, h.pold, ?_, ?_, ?_⟩
    · intro v
      rw [h.top, sum_zero fun t ht => by simp [pend, mem_newE ht], if_neg]
      · rfl
      · rintro ⟨hv, hL⟩
        by_cases hc : ∃ j, D v = some j ∧ j ≤ k
        · obtain ⟨j, h3, h4⟩ := hc
          have := h.old v j h3 h4
          omega
        · have := h.fresh v hv fun j hj => by
            by_contra hn
            exact hc ⟨j, hj, by omega⟩
          omega
    · rw [h.top, sum_zero fun t ht => by simp [bumping, mem_newE ht]]; rfl
    · intro v hv
      rw [sum_zero fun t ht => by simp [contrib, mem_newE ht, EPc.stored]]
      exact h.gfar v fun j hj => by rw [hv] at hj; cases hj; omega
    · exact fun v hv => h.gfar v fun j hj => by have := hv j hj; omega
    · intro w hw u
      rw [sum_zero fun t ht => by simp [linked, mem_newE ht], h.pfar w (D_lt hg hs hD hw) fun j hj => by rw [hw] at hj; cases hj; omega]
      rfl
    · exact fun w hwn hw => h.pfar w hwn fun j hj => by have := hw j hj; omega
    · intro t ht
      have := mem_newE ht
      constructor <;> simp [this, EPc.knows, EPc.isNew]

theorem F.join {k : Nat} {L G : Nat → Nat} {Q SS : Nat → List Nat} {ts : List ETask} {m : Mem} (h : F c s D k L G Q SS ts m) (hg : InRange c.g) (hs : s < c.g.length)
    (hD : ∀ v d, D v = some d ↔ IsDist c.g s v d) (hinf : k + 1 < c.inf) (hf : ∀ t ∈ ts, t.pc = .done) :
    Pre c s D (k + 1) L G Q (fun j => if j = k + 2 then [] else SS j) { m with S := m.S ++ [[]] } ∧ m.count = (SS (k + 1)).length ∧ Lay D (SS (k + 1)) (k + 1) := by
  have hset : ∀ v, D v = some (k + 1) → L v = k + 1 := by
    intro v hv
    obtain ⟨u, hu, he⟩ := ((hD v _).1 hv).pred
    have h1 : (u, v) ∈ ts.map ETask.edge := by
      rw [h.edges]
      exact List.mem_flatMap.2 ⟨u, ((h.lay k (Nat.le_refl _)).2 u).2 ((hD u k).2 hu), List.mem_map_of_mem he⟩
    obtain ⟨t, ht, e⟩ := List.mem_map.1 h1
    unfold ETask.edge at e
    cases e
    exact (h.tk t ht).known (by rw [hf t ht]; rfl) hv
  have hiff : ∀ v, (v < c.g.length ∧ L v = k + 1) ↔ D v = some (k + 1) := by
    intro v
    constructor
    · rintro ⟨h1, h2⟩
      by_cases hc : ∃ j, D v = some j ∧ j ≤ k
      · obtain ⟨j, h3, h4⟩ := hc
        have := h.old v j h3 h4
        omega
      · rcases h.fresh v h1 fun j hj => by
          by_contra hn
          exact hc ⟨j, hj, by omega⟩ with e | e
        · omega
        · exact e.2
    · intro hv; exact ⟨D_lt hg hs hD hv, hset v hv⟩
  have hcount : ∀ v, (SS (k + 1)).count v = if D v = some (k + 1) then 1 else 0 := by
    intro v
    have h1 := h.que v
    rw [sum_zero fun t ht => by simp [pend, hf t ht], Nat.add_zero] at h1
    rw [h1]
    simp only [hiff]
  have hlay : Lay D (SS (k + 1)) (k + 1) := by
    constructor
    · rw [List.nodup_iff_count]
      intro v
      rw [hcount]; split <;> omega
    · intro v
      rw [← List.count_pos_iff, hcount]
      split
      · rename_i e; simp [e]
      · rename_i e; simp [e]
  refine ⟨⟨?_, h.lv, ?_, ?_, ?_, if_pos rfl, h.cnt, ?_, h.gfar, h.pv, ?_, h.pfar⟩, ?_, hlay⟩
  · intro j hj
    simp only [if_neg (show ¬ j = k + 2 by omega)]
    rcases Nat.lt_or_ge k j with hl | hl
    · obtain rfl : j = k + 1 := by omega
      exact hlay
    · exact h.lay j hl
  · intro v j hv hj
    rcases Nat.lt_or_ge k j with hl | hl
    · obtain rfl : j = k + 1 := by omega
      exact hset v hv
    · exact h.old v j hv hl
  · intro v hvn hv
    rcases h.fresh v hvn fun j hj => by have := hv j hj; omega with e | e
    · exact e
    · have := hv _ e.2; omega
  · refine ⟨by simp [h.sl.1], fun j hj => ?_⟩
    rw [List.getElem?_append]
    by_cases e : j = k + 2
    · subst e; simp [h.sl.1]
    · have : j < m.S.length := by rw [h.sl.1]; omega
      simp only [if_pos this, if_neg e]; exact h.sl.2 j (by omega)
  · intro v j hv hj
    rcases Nat.lt_or_ge k j with hl | hl
    · obtain rfl : j = k + 1 := by omega
      rw [h.gnew v hv, ← nw_edges hg hs hD (h.lay k (Nat.le_refl _)) hv, ← h.edges, List.map_map]
      congr 1
      apply List.map_congr_left
      intro t ht
      by_cases e : t.w = v <;> simp [contrib, hf t ht, EPc.stored, ETask.edge, e]
    · exact h.gold v j hv hl
  · intro w j hw hj u
    rcases Nat.lt_or_ge j k with hl | hl
    · exact h.pold w j hw hl u
    · obtain rfl : j = k := by omega
      rw [h.pnew w hw u]
      have e1 : ts.map (linked u w) = (ts.map ETask.edge).map fun e => if e = (u, w) then 1 else 0 := by
        rw [List.map_map]
        apply List.map_congr_left
        intro t ht
        simp [linked, hf t ht]
      rw [e1, h.edges, sum_edges]
      have e2 : ∀ x, ((nbrs c.g x).map fun y => if (x, y) = (u, w) then 1 else 0).sum = if x = u then mult c.g u w else 0 := by
        intro x
        by_cases e : x = u
        · subst e
          rw [if_pos rfl]
          have := sum_ind (nbrs c.g x) w 1
          rw [Nat.mul_one] at this
          rw [mult, ← this]
          congr 1
          apply List.map_congr_left
          intro y _
          simp
        · rw [if_neg e]
          exact sum_zero fun y _ => by simp [e]
      simp only [e2]
      rw [sum_ind]
      by_cases hu : D u = some j
      · rw [if_pos hu, List.count_eq_one_of_mem (h.lay j (Nat.le_refl _)).1 (((h.lay j (Nat.le_refl _)).2 u).2 hu), Nat.one_mul]
      · rw [if_neg hu, List.count_eq_zero_of_not_mem fun hm => hu (((h.lay j (Nat.le_refl _)).2 u).1 hm), Nat.zero_mul]
  · have := h.num
    rw [sum_zero fun t ht => by simp [bumping, hf t ht]] at this
    exact this

/-! ### The way back -/

/-- The arrays after the forward rounds; `K` is the deepest level. -/
structure Fwd (c : Args α) (s : Nat) (D : Nat → Option Nat) (K : Nat) (Q SS : Nat → List Nat) (m : Mem) : Prop where
  pc : ∀ v j, D v = some j → vget m.pc v = .ok (nw c.g j s v)
  pp : ∀ w j, D w = some (j + 1) → vget m.P w = .ok (Q w) ∧ ∀ u, (Q w).count u = if D u = some j then mult c.g u w else 0
  ss : ∀ j ≤ K, vget m.S j = .ok (SS j) ∧ Lay D (SS j) j

/-- What `w` at distance `k + 1` contributes to the score of a predecessor `v`. -/
def part (g : Rows α) (s : Nat) (Δ : Nat → ℚ) (k v w : Nat) : ℚ := (nw g k s v : ℚ) / (nw g (k + 1) s w : ℚ) * (1 + Δ w)

def BTask.weight (t : BTask) : Nat := (t.row.length - t.pos) + if t.done then 0 else 1

open Classical in
/-- The state while the vertices at distance `k + 1` are dealt with. -/
structure B (c : Args α) (s : Nat) (D : Nat → Option Nat) (Δ : Nat → ℚ) (K k : Nat) (Q SS : Nat → List Nat) (ts : List BTask) (deltas : List ℚ) (m : Mem) (log : List AddEv) (E : Nat → ℚ) :
    Prop where
  us : (ts.map BTask.w).Nodup
  mem : ∀ v, v ∈ ts.map BTask.w ↔ D v = some (k + 1)
  low : k + 1 ≤ K
  fwd : Fwd c s D K Q SS m
  dl : Vec c.g.length E deltas
  deep : ∀ v j, D v = some j → k + 1 ≤ j → E v = Δ v
  cur : ∀ v, D v = some k → E v = (ts.map fun t => ((t.row.take t.pos).count v : ℚ) * part c.g s Δ k v t.w).sum
  far : ∀ v j, D v = some j → j < k → E v = 0
  row : ∀ t ∈ ts, t.row = Q t.w ∧ t.pos ≤ t.row.length ∧ (t.done = true → t.pos = t.row.length)
  rng : ∀ e ∈ log, e.1 < c.g.length
  sum : ∀ v, logSum log v = (if ∃ j, D v = some j ∧ k + 1 < j then Δ v else 0) + (ts.map fun t => if t.w = v ∧ t.done = true then Δ v else 0).sum

variable {Δ : Nat → ℚ}

section bstep
variable {K k : Nat} {Q SS : Nat → List Nat} {ts : List BTask} {deltas : List ℚ} {m : Mem} {log : List AddEv} {E : Nat → ℚ}

theorem map_bw_set {i : Nat} {t t' : BTask} (hi : ts[i]? = some t) (hu : t'.w = t.w) : (ts.set i t').map BTask.w = ts.map BTask.w := by
  rw [List.map_set, hu]
  apply List.ext_getElem? fun j => ?_
  rw [List.getElem?_set]
  split
  · rename_i e; subst e
    split
    · simp [hi]
    · rename_i h1; rw [List.getElem?_eq_none (by simpa using h1)]
  · rfl

theorem bTask_ok (hg : InRange c.g) (hs : s < c.g.length) (hD : ∀ v d, D v = some d ↔ IsDist c.g s v d) (h : B c s D Δ K k Q SS ts deltas m log E) {i : Nat} {t : BTask}
    (hi : ts[i]? = some t) (hf : t.done = false) :
    ∃ deltas' t' e E', bTask m deltas t = .ok (deltas', t', e) ∧ B c s D Δ K k Q SS (ts.set i t') deltas' m (log ++ e.toList) E' ∧ t'.weight < t.weight := by
  have ht : t ∈ ts := List.mem_of_getElem? hi
  have hw : D t.w = some (k + 1) := (h.mem t.w).1 (List.mem_map_of_mem ht)
  have hwn := D_lt hg hs hD hw
  obtain ⟨hrow, hpos, -⟩ := h.row t ht
  have hEw := h.deep t.w _ hw (Nat.le_refl _)
  obtain ⟨w, row, pos, done⟩ := t
  simp only at hw hwn hrow hpos hEw hf
  subst hf
  unfold bTask
  dsimp only
  by_cases hp : pos < row.length
  · rw [if_pos hp, vget_of_lt hp, res_bind_ok]
    obtain ⟨v, hv⟩ : ∃ v, row[pos]? = some v := ⟨_, List.getElem?_eq_getElem hp⟩
    have hv' : row[pos] = v := by rw [List.getElem?_eq_getElem hp] at hv; cases hv; rfl
    rw [hv']
    have hDv : D v = some k := by
      by_contra hne
      have h1 := (h.fwd.pp w k hw).2 v
      rw [if_neg hne, ← hrow] at h1
      have := List.count_pos_iff.2 (List.mem_of_getElem? hv)
      omega
    have hvn := D_lt hg hs hD hDv
    have hne : (nw c.g (k + 1) s w) ≠ 0 := by
      have := (nw_pos hg).2 ((hD w _).1 hw).1
      omega
    rw [h.fwd.pc v k hDv, res_bind_ok, h.fwd.pc w _ hw, res_bind_ok, BrandesPar.quot_ok hne, res_bind_ok, h.dl.vget hwn, res_bind_ok, h.dl.vget hvn, res_bind_ok]
    obtain ⟨e1, e2⟩ := h.dl.vset hvn (E v + BrandesPar.quotQ .exact (nw c.g k s v) (nw c.g (k + 1) s w) * (1 + E w))
    rw [e1, res_bind_ok]
    refine ⟨_, _, _, _, rfl, ⟨?_, ?_, h.low, h.fwd, e2, ?_, ?_, ?_, ?_, by simpa using h.rng, ?_⟩, ?_⟩
    · rw [map_bw_set hi (by rfl)]; exact h.us
    · rw [map_bw_set hi (by rfl)]; exact h.mem
    · intro x j hx hj
      rw [if_neg (by rintro rfl; rw [hDv] at hx; cases hx; omega)]
      exact h.deep x j hx hj
    · intro x hx
      rw [sum_map_set _ hi, ← h.cur x hx]
      dsimp only
      by_cases e : x = v
      · subst e
        rw [if_pos rfl, BrandesPar.count_take_succ hv, if_pos rfl, hEw]
        unfold part BrandesPar.quotQ
        push_cast
        ring
      · rw [if_neg e, BrandesPar.count_take_succ hv, if_neg e]
        simp
    · intro x j hx hj
      rw [if_neg (by rintro rfl; rw [hDv] at hx; cases hx; omega)]
      exact h.far x j hx hj
    · intro x hx
      obtain ⟨j, hj⟩ := List.getElem?_of_mem hx
      rcases getElem?_set_cases hj with ⟨-, rfl⟩ | ⟨-, hj'⟩
      · exact ⟨hrow, hp, fun e => by cases e⟩
      · exact h.row x (List.mem_of_getElem? hj')
    · intro x
      have e : logSum (log ++ (none : Option AddEv).toList) x = logSum log x := by simp [logSum]
      rw [sum_map_set _ hi, e, h.sum x]
      simp
    · simp [BTask.weight]; omega
  · rw [if_neg hp, h.dl.vget hwn, res_bind_ok]
    have hpl : pos = row.length := by omega
    refine ⟨_, _, _, E, rfl, ⟨?_, ?_, h.low, h.fwd, h.dl, h.deep, ?_, h.far, ?_, ?_, ?_⟩, ?_⟩
    · rw [map_bw_set hi (by rfl)]; exact h.us
    · rw [map_bw_set hi (by rfl)]; exact h.mem
    · intro x hx
      rw [sum_map_set _ hi, ← h.cur x hx]
      simp
    · intro x hx
      obtain ⟨j, hj⟩ := List.getElem?_of_mem hx
      rcases getElem?_set_cases hj with ⟨-, rfl⟩ | ⟨-, hj'⟩
      · exact ⟨hrow, hpos, fun _ => hpl⟩
      · exact h.row x (List.mem_of_getElem? hj')
    · intro e he
      rcases List.mem_append.1 he with he | he
      · exact h.rng e he
      · simp at he; subst he; exact hwn
    · intro x
      rw [sum_map_set _ hi, logSum_append, h.sum x]
      by_cases e : w = x
      · subst e; simp [logSum, hEw]; ring
      · simp [logSum, e]
    · simp [BTask.weight]

end bstep

/-- `Δ` satisfies the recursion of the dependencies. -/
abbrev Rec (c : Args α) (s : Nat) (D : Nat → Option Nat) (Δ : Nat → ℚ) : Prop :=
  BrandesPar.Rec { g := c.g, bins := 1, inf := c.inf, M := c.M, dv := .exact } s D Δ

open Classical in
/-- The state after the vertices beyond distance `k` have been dealt with. -/
structure R (c : Args α) (s : Nat) (D : Nat → Option Nat) (Δ : Nat → ℚ) (K k : Nat) (Q SS : Nat → List Nat) (deltas : List ℚ) (m : Mem) (log : List AddEv) (E : Nat → ℚ) : Prop where
  low : k ≤ K
  fwd : Fwd c s D K Q SS m
  dl : Vec c.g.length E deltas
  deep : ∀ v j, D v = some j → k ≤ j → E v = Δ v
  far : ∀ v j, D v = some j → j < k → E v = 0
  rng : ∀ e ∈ log, e.1 < c.g.length
  sum : ∀ v, logSum log v = if ∃ j, D v = some j ∧ k < j then Δ v else 0

theorem sum_levelQ (n : Nat) {q : List Nat} {k : Nat} (hq : q.Nodup) (hm : ∀ v, v ∈ q ↔ D v = some k) (hn : ∀ v, D v = some k → v < n) (f : Nat → ℚ) :
    (q.map f).sum = ∑ v ∈ Finset.range n, if D v = some k then f v else 0 := by
  rw [← List.sum_toFinset f hq, ← Finset.sum_filter]
  apply Finset.sum_congr _ fun _ _ => rfl
  ext v
  simp only [List.mem_toFinset, Finset.mem_filter, Finset.mem_range, hm]
  exact ⟨fun h => ⟨hn v h, h⟩, fun h => h.2⟩

/-- The end of a level. -/
theorem B.finished {K k : Nat} {Q SS : Nat → List Nat} {ts : List BTask} {deltas : List ℚ} {m : Mem} {log : List AddEv} {E : Nat → ℚ} (h : B c s D Δ K k Q SS ts deltas m log E)
    (hg : InRange c.g) (hs : s < c.g.length) (hD : ∀ v d, D v = some d ↔ IsDist c.g s v d) (hΔ : Rec c s D Δ) (hf : ∀ t ∈ ts, t.done = true) : R c s D Δ K k Q SS deltas m log E where
  low := by have := h.low; omega
  fwd := h.fwd
  dl := h.dl
  deep := by
    intro v j hv hj
    rcases Nat.lt_or_ge k j with hl | hl
    · exact h.deep v j hv hl
    · obtain rfl : j = k := by omega
      rw [h.cur v hv, hΔ v j hv]
      have e1 : (ts.map fun t => ((t.row.take t.pos).count v : ℚ) * part c.g s Δ j v t.w) = (ts.map BTask.w).map fun w => (mult c.g v w : ℚ) * part c.g s Δ j v w := by
        rw [List.map_map]
        apply List.map_congr_left
        intro t ht
        obtain ⟨h1, h2, h3⟩ := h.row t ht
        have h4 := (h.fwd.pp t.w j ((h.mem t.w).1 (List.mem_map_of_mem ht))).2 v
        rw [if_pos hv] at h4
        rw [h3 (hf t ht), List.take_length, h1, h4]
        rfl
      rw [e1, sum_levelQ c.g.length h.us h.mem fun w hw => D_lt hg hs hD hw, sum_list_countQ _ _ c.g.length fun x hx => hg v x hx]
      apply Finset.sum_congr rfl
      intro w _
      unfold BrandesPar.part
      by_cases hw : D w = some (j + 1)
      · rw [if_pos hw, if_pos hw]; rfl
      · rw [if_neg hw, if_neg hw, mul_zero]
  far := h.far
  rng := h.rng
  sum := by
    intro v
    have h1 : (ts.map fun t => if t.w = v ∧ t.done = true then Δ v else 0) = (ts.map BTask.w).map fun u => if u = v then Δ v else 0 := by
      rw [List.map_map]
      apply List.map_congr_left
      intro t ht
      simp [hf t ht]
    rw [h.sum v, h1, BrandesPar.sum_layerQ h.us h.mem]
    by_cases hd : ∃ j, D v = some j ∧ k + 1 < j
    · obtain ⟨j, h3, h4⟩ := hd
      rw [if_pos ⟨j, h3, h4⟩, if_neg (by rw [h3]; simp; omega), if_pos ⟨j, h3, by omega⟩, add_zero]
    · rw [if_neg hd]
      by_cases hv : D v = some (k + 1)
      · rw [if_pos hv, if_pos ⟨_, hv, Nat.lt_succ_self _⟩]; simp
      · rw [if_neg hv, if_neg, add_zero]
        rintro ⟨j, h3, h4⟩
        by_cases hj : j = k + 1
        · subst hj; exact hv h3
        · exact hd ⟨j, h3, by omega⟩

def newB (Q : Nat → List Nat) (w : Nat) : BTask := { w := w, row := Q w, pos := 0, done := false }

/-- The distances of the vertices other than the source. -/
def others (s : Nat) (D : Nat → Option Nat) (v : Nat) : Option Nat := if v = s then none else D v

/-- What the run of `s` adds. -/
def Adds (c : Args α) (s : Nat) (D : Nat → Option Nat) (Δ : Nat → ℚ) : List AddEv → Prop :=
  BrandesPar.Adds { g := c.g, bins := 1, inf := c.inf, M := c.M, dv := .exact } (others s D) Δ

/-- On to the level before. -/
theorem R.next {K k : Nat} {Q SS : Nat → List Nat} {deltas : List ℚ} {m : Mem} {log : List AddEv} {E : Nat → ℚ} (h : R c s D Δ K k Q SS deltas m log E)
    (hD : ∀ v d, D v = some d ↔ IsDist c.g s v d) :
    (k = 0 ∧ retreat deltas m (k + 1) = .ok (.inr ()) ∧ Adds c s D Δ log) ∨
      ∃ j, k = j + 1 ∧ retreat deltas m (k + 1) = .ok (.inl (.back ((SS (j + 1)).map (newB Q)) deltas m (j + 1), none)) ∧ B c s D Δ K j Q SS ((SS (j + 1)).map (newB Q)) deltas m log E := by
  cases k with
  | zero =>
    refine Or.inl ⟨rfl, rfl, h.rng, fun v => ?_⟩
    rw [h.sum v]
    unfold others
    by_cases hv : v = s
    · subst hv
      have hDs : D v = some 0 := (hD v 0).2 (.zero _ _)
      rw [if_neg]
      · simp
      · rintro ⟨j, h1, h2⟩; rw [hDs] at h1; cases h1; omega
    · rw [if_neg hv]
      cases hd : D v with
      | none => simp
      | some j =>
        have : 0 < j := by
          by_contra hn
          obtain rfl : j = 0 := by omega
          exact hv ((hD v 0).1 hd).of_zero
        rw [if_pos ⟨j, rfl, this⟩]; simp
  | succ j =>
    obtain ⟨h1, h2⟩ := h.fwd.ss (j + 1) h.low
    have hmap : ((SS (j + 1)).map (newB Q)).map BTask.w = SS (j + 1) := by
      rw [List.map_map]
      have : BTask.w ∘ newB Q = id := rfl
      rw [this, List.map_id]
    refine Or.inr ⟨j, rfl, ?_, ?_⟩
    · unfold retreat
      rw [if_pos (by omega)]
      simp only [Nat.add_sub_cancel]
      rw [h1, res_bind_ok, mapM_ok_of_forall (g := newB Q) fun w hw => by rw [(h.fwd.pp w j ((h2.2 w).1 hw)).1]; rfl, res_bind_ok]
      rfl
    · refine ⟨by rw [hmap]; exact h2.1, fun v => by rw [hmap]; exact h2.2 v, h.low, h.fwd, h.dl, h.deep, ?_, fun v i hv hi => h.far v i hv (by omega), ?_, h.rng, ?_⟩
      · intro v hv
        rw [h.far v j hv (Nat.lt_succ_self _), List.map_map]
        symm
        apply List.sum_eq_zero
        intro x hx
        obtain ⟨w, -, rfl⟩ := List.mem_map.1 hx
        simp [newB]
      · intro t ht
        obtain ⟨w, -, rfl⟩ := List.mem_map.1 ht
        exact ⟨rfl, Nat.zero_le _, fun e => by cases e⟩
      · intro v
        have h3 : (((SS (j + 1)).map (newB Q)).map fun t => if t.w = v ∧ t.done = true then Δ v else 0).sum = 0 := by
          rw [List.map_map]
          apply List.sum_eq_zero
          intro x hx
          obtain ⟨w, -, rfl⟩ := List.mem_map.1 hx
          simp [newB]
        rw [h.sum v, h3, add_zero]

/-! ### The run of a source -/

/-- The states of the run of `s`. -/
inductive Inv (c : Args α) (s : Nat) (D : Nat → Option Nat) (Δ : Nat → ℚ) : Th × List AddEv → Prop
  | start : Inv c s D Δ (.start s, [])
  | fwd {k : Nat} {L G : Nat → Nat} {Q SS : Nat → List Nat} {ts : List ETask} {m : Mem} (h : F c s D k L G Q SS ts m) (hk : k < c.g.length) : Inv c s D Δ (.fwd ts m k (k + 1), [])
  | back {K k : Nat} {Q SS : Nat → List Nat} {ts : List BTask} {deltas : List ℚ} {m : Mem} {log : List AddEv} {E : Nat → ℚ} (h : B c s D Δ K k Q SS ts deltas m log E) :
      Inv c s D Δ (.back ts deltas m (k + 1), log)

def meas (n : Nat) (x : Th × List AddEv) : Nat × Nat :=
  match x.1 with
  | .start _ => (3 * n + 9, 0)
  | .fwd ts _ _ depth => ((n + 2) + (n + 2 - depth), (ts.map ETask.weight).sum)
  | .back ts _ _ phase => (phase, (ts.map BTask.weight).sum)

theorem init_ok (hg : InRange c.g) (hs : s < c.g.length) (hD : ∀ v d, D v = some d ↔ IsDist c.g s v d) (hinf : c.g.length < c.inf) :
    ∃ x, init c s = .ok x ∧ Inv c s D Δ (x, []) ∧ Prod.Lex Nat.lt Nat.lt (meas c.g.length (x, [])) (meas c.g.length (.start s, [])) := by
  have hDs : D s = some 0 := (hD s 0).2 (.zero _ _)
  have hD0 : ∀ v, D v = some 0 → v = s := fun v hv => ((hD v 0).1 hv).of_zero
  unfold init
  obtain ⟨e1, e2⟩ := (Vec.replicate c.g.length 0).vset hs 1
  obtain ⟨e3, e4⟩ := (Vec.replicate c.g.length c.inf).vset hs 0
  rw [e1, res_bind_ok, e3, res_bind_ok]
  have hp : Pre c s D 0 (fun w => if w = s then 0 else c.inf) (fun w => if w = s then 1 else 0) (fun _ => []) (fun j => if j = 0 then [s] else [])
      { depths := (List.replicate c.g.length c.inf).set s 0, pc := (List.replicate c.g.length 0).set s 1, P := List.replicate c.g.length [], S := [[s], []], count := 1 } := by
    refine ⟨?_, e4, ?_, ?_, ?_, rfl, e2, ?_, ?_, Vec.replicate _ _, ?_, fun _ _ _ => rfl⟩
    · intro j hj
      obtain rfl : j = 0 := by omega
      refine ⟨by simp, fun v => ?_⟩
      rw [if_pos rfl, List.mem_singleton]
      exact ⟨fun e => e ▸ hDs, hD0 v⟩
    · intro v j hv hj
      obtain rfl : j = 0 := by omega
      exact if_pos (hD0 v hv)
    · intro v _ hv
      refine if_neg ?_
      rintro rfl
      have := hv 0 hDs; omega
    · refine ⟨rfl, fun j hj => ?_⟩
      match j with
      | 0 => rfl
      | 1 => rfl
      | j + 2 => omega
    · intro v j hv hj
      obtain rfl : j = 0 := by omega
      have := hD0 v hv
      subst this
      rw [nw_zero]
    · intro v hv
      refine if_neg ?_
      rintro rfl
      have := hv 0 hDs; omega
    · intro w j _ hj; omega
  obtain ⟨h1, h2⟩ := hp.start hg hs hD (by omega)
  refine ⟨_, h1, .fwd h2 (by omega), ?_⟩
  left
  show (c.g.length + 2) + (c.g.length + 2 - (0 + 1)) < 3 * c.g.length + 9
  omega

theorem thread_sure (hg : InRange c.g) (hs : s < c.g.length) (hD : ∀ v d, D v = some d ↔ IsDist c.g s v d) (hinf : c.g.length < c.inf)
    (hM : 1 < c.M) (hone : ∀ v d, D v = some d → nw c.g d s v ≤ 1) (hΔ : Rec c s D Δ) : Sure (Logged (VStep c)) (Adds c s D Δ) (.start s, []) := by
  refine Sure.of_inv (Prod.lex Nat.lt_wfRel Nat.lt_wfRel).wf (meas c.g.length) (Inv c s D Δ) ?_ ?_ _ .start
  · rintro x hx
    cases hx with
    | start =>
      obtain ⟨x, h1, -⟩ := init_ok (Δ := Δ) hg hs hD hinf
      have := VStep.start (c := c) (root := s)
      rw [h1] at this
      exact ⟨_, .go this⟩
    | @fwd k L G Q SS ts m h hk =>
      by_cases hall : ∀ t ∈ ts, t.pc = .done
      · have := VStep.fJoin (c := c) (m := m) (phase := k) (depth := k + 1) hall
        cases hj : fJoin c m k (k + 1) with
        | error f => rw [hj] at this; exact ⟨_, .fault this⟩
        | ok x =>
          rw [hj] at this
          rcases x with ⟨x, e⟩ | ⟨⟨⟩⟩
          · exact ⟨_, .go this⟩
          · exact ⟨_, .stop this⟩
      · push Not at hall
        obtain ⟨t, ht, hf⟩ := hall
        obtain ⟨i, hi⟩ := List.getElem?_of_mem ht
        have := VStep.fStep (c := c) (m := m) (phase := k) (depth := k + 1) hi hf
        cases hj : eTask c k (k + 1) m t with
        | error f => rw [hj] at this; exact ⟨_, .fault this⟩
        | ok x => rw [hj] at this; exact ⟨_, .go this⟩
    | @back K k Q SS ts deltas m log E h =>
      by_cases hall : ∀ t ∈ ts, t.done = true
      · have := VStep.bJoin (c := c) (deltas := deltas) (m := m) (phase := k + 1) hall
        cases hj : retreat deltas m (k + 1) with
        | error f => rw [hj] at this; exact ⟨_, .fault this⟩
        | ok x =>
          rw [hj] at this
          rcases x with ⟨x, e⟩ | ⟨⟨⟩⟩
          · exact ⟨_, .go this⟩
          · exact ⟨_, .stop this⟩
      · push Not at hall
        obtain ⟨t, ht, hf⟩ := hall
        obtain ⟨i, hi⟩ := List.getElem?_of_mem ht
        have := VStep.bStep (c := c) (deltas := deltas) (m := m) (phase := k + 1) hi (by simpa using hf)
        cases hj : bTask m deltas t with
        | error f => rw [hj] at this; exact ⟨_, .fault this⟩
        | ok x => rw [hj] at this; exact ⟨_, .go this⟩
  · rintro x o hx ho
    cases hx with
    | start =>
      obtain ⟨x, h1, h2, h3⟩ := init_ok (Δ := Δ) hg hs hD hinf
      have key : ∀ o', VStep c (.start s) o' → o' = .ok (.inl (x, none)) := by
        intro o' h
        cases h with
        | start => rw [h1]; rfl
      cases ho with
      | go h => cases key _ h; exact Or.inl ⟨_, rfl, by simpa using h2, h3⟩
      | fault h => cases key _ h
      | stop h => cases key _ h
    | @fwd k L G Q SS ts m h hk =>
      have hinf' : k + 1 < c.inf := by omega
      have key : ∀ o', VStep c (.fwd ts m k (k + 1)) o' → (∃ x, o' = .ok (.inl (x, none)) ∧ Inv c s D Δ (x, []) ∧
          Prod.Lex Nat.lt Nat.lt (meas c.g.length (x, [])) (meas c.g.length (.fwd ts m k (k + 1), []))) ∨ (o' = .ok (.inr ()) ∧ Adds c s D Δ []) := by
        intro o' h'
        cases h' with
        | fStep hi hf =>
          obtain ⟨m', t', L', G', Q', SS', e, hF, hw⟩ := eTask_ok hg hs hD hinf' hM hone h hi hf
          rw [e]
          exact Or.inl ⟨_, rfl, .fwd hF hk, Prod.Lex.right _ (sum_map_set_lt _ hi hw)⟩
        | fJoin hf =>
          obtain ⟨hp, hc, hl⟩ := h.join hg hs hD hinf' hf
          unfold fJoin
          by_cases hem : 0 < m.count
          · rw [if_pos hem]
            have hk' : k + 1 < c.g.length := by
              rw [hc] at hem
              obtain ⟨v, hv⟩ := List.exists_mem_of_length_pos hem
              exact ((hD v _).1 ((hl.2 v).1 hv)).lt_length hg hs
            obtain ⟨e, hF⟩ := hp.start hg hs hD (by omega)
            rw [e]
            refine Or.inl ⟨_, rfl, .fwd hF hk', ?_⟩
            left
            show (c.g.length + 2) + (c.g.length + 2 - (k + 1 + 1)) < (c.g.length + 2) + (c.g.length + 2 - (k + 1))
            omega
          · rw [if_neg hem]
            have hnone : ∀ v, D v ≠ some (k + 1) := by
              intro v hv
              have := List.length_pos_of_mem ((hl.2 v).2 hv)
              omega
            have hle : ∀ v j, D v = some j → j ≤ k := by
              intro v j hv
              by_contra hlt
              obtain ⟨w, hw⟩ := ((hD v j).1 hv).down (j := k + 1) (by omega)
              exact hnone w ((hD w _).2 hw)
            have hR : R c s D Δ k k Q (fun j => if j = k + 2 then [] else SS j) (List.replicate c.g.length 0) { m with S := m.S ++ [[]] } [] (fun _ => 0) := by
              refine ⟨Nat.le_refl _, ⟨?_, ?_, ?_⟩, Vec.replicate _ _, ?_, fun _ _ _ _ => rfl, by simp, ?_⟩
              · intro v j hv
                rw [hp.cnt.vget (D_lt hg hs hD hv), hp.gold v j hv (by have := hle v j hv; omega)]
              · intro w j hw
                exact ⟨hp.pv.vget (D_lt hg hs hD hw), hp.pold w j hw (by have := hle w _ hw; omega)⟩
              · intro j hj
                exact ⟨hp.sl.vget (by omega), hp.lay j (by omega)⟩
              · intro v j hv hj
                obtain rfl : j = k := by have := hle v j hv; omega
                rw [hΔ v j hv]
                symm
                apply List.sum_eq_zero
                intro x hx
                obtain ⟨w, -, rfl⟩ := List.mem_map.1 hx
                exact if_neg (hnone w)
              · intro v
                rw [if_neg]
                · simp [logSum]
                · rintro ⟨j, h1, h2⟩
                  have := hle v j h1; omega
            rcases hR.next hD with ⟨-, e, ha⟩ | ⟨j, rfl, e, hB⟩
            · exact Or.inr ⟨e, ha⟩
            · refine Or.inl ⟨_, e, .back hB, ?_⟩
              left
              show j + 1 < (c.g.length + 2) + (c.g.length + 2 - (j + 1 + 1))
              omega
      cases ho with
      | go h =>
        rcases key _ h with ⟨x, e, h2, h3⟩ | ⟨e, -⟩
        · cases e; exact Or.inl ⟨_, rfl, by simpa using h2, h3⟩
        · cases e
      | fault h => rcases key _ h with ⟨x, e, -⟩ | ⟨e, -⟩ <;> cases e
      | stop h =>
        rcases key _ h with ⟨x, e, -⟩ | ⟨e, h2⟩
        · cases e
        · exact Or.inr ⟨_, rfl, h2⟩
    | @back K k Q SS ts deltas m log E h =>
      have key : ∀ o', VStep c (.back ts deltas m (k + 1)) o' → (∃ x e, o' = .ok (.inl (x, e)) ∧ Inv c s D Δ (x, log ++ e.toList) ∧
          Prod.Lex Nat.lt Nat.lt (meas c.g.length (x, log ++ e.toList)) (meas c.g.length (.back ts deltas m (k + 1), log))) ∨ (o' = .ok (.inr ()) ∧ Adds c s D Δ log) := by
        intro o' h'
        cases h' with
        | bStep hi hf =>
          obtain ⟨deltas', t', e, E', he, hB, hw⟩ := bTask_ok hg hs hD h hi hf
          rw [he]
          exact Or.inl ⟨_, _, rfl, .back hB, Prod.Lex.right _ (sum_map_set_lt _ hi hw)⟩
        | bJoin hf =>
          rcases (h.finished hg hs hD hΔ hf).next hD with ⟨-, e, ha⟩ | ⟨j, rfl, e, hB⟩
          · exact Or.inr ⟨e, ha⟩
          · refine Or.inl ⟨_, _, e, by simpa using Inv.back hB, ?_⟩
            left
            exact Nat.lt_succ_self _
      cases ho with
      | go h =>
        rcases key _ h with ⟨x, e, h1, h2, h3⟩ | ⟨h1, -⟩
        · cases h1; exact Or.inl ⟨_, rfl, h2, h3⟩
        · cases h1
      | fault h => rcases key _ h with ⟨x, e, h1, h2, h3⟩ | ⟨h1, -⟩ <;> cases h1
      | stop h =>
        rcases key _ h with ⟨x, e, h1, h2, h3⟩ | ⟨h1, h2⟩
        · cases h1
        · exact Or.inr ⟨_, rfl, h2⟩

end NW.BcRace
