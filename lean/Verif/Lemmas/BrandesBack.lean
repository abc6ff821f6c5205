import Verif.Lemmas.BrandesPar

/-! # Lemmas: the backward rounds of the parallel betweenness routine, and the whole thread of a source -/

namespace NW.BrandesPar
open Spec
open NW.Brandes (Vec isNext isNext_iff)

variable {α : Type}

/-- The quotient as a number. -/
def quotQ (dv : Division) (a b : Nat) : ℚ := match dv with
  | .exact => (a : ℚ) / (b : ℚ)
  | .integral => ((a / b : Nat) : ℚ)

theorem quot_ok {dv : Division} {a b : Nat} (h : b ≠ 0) : quot dv a b = .ok (quotQ dv a b) := by
  unfold quot quotQ
  rw [if_neg h]
  cases dv <;> rfl

/-- What the neighbour `v` contributes to the score of `u` at distance `k`. -/
def part (c : Args α) (s : Nat) (D : Nat → Option Nat) (Δ : Nat → ℚ) (u k v : Nat) : ℚ :=
  if D v = some (k + 1) then quotQ c.dv (nw c.g k s u) (nw c.g (k + 1) s v) * (1 + Δ v) else 0

/-- `Δ` satisfies the recursion that the code computes. -/
def Rec (c : Args α) (s : Nat) (D : Nat → Option Nat) (Δ : Nat → ℚ) : Prop :=
  ∀ u k, D u = some k → Δ u = ((nbrs c.g u).map (part c s D Δ u k)).sum

/-- The arrays after the forward rounds. -/
structure Fwd (c : Args α) (s : Nat) (D : Nat → Option Nat) (m : Mem) : Prop where
  pc : ∀ v j, D v = some j → vget m.pc v = .ok (nw c.g j s v)
  sc : ∀ u j, D u = some j → vget m.succ u = .ok ((nbrs c.g u).map (isNext D u))

structure BOk (c : Args α) (s : Nat) (D : Nat → Option Nat) (Δ E : Nat → ℚ) (k : Nat) (t : BTask) : Prop where
  row : t.row = nbrs c.g t.u
  pos : t.pos ≤ t.row.length
  scan : t.pc = .scan → t.delta = ((t.row.take t.pos).map (part c s D Δ t.u k)).sum
  val : t.pc ≠ .scan → t.delta = Δ t.u
  stored : t.pc = .add ∨ t.pc = .done → E t.u = Δ t.u

/-- `v` lies beyond distance `k`. -/
def deeper (D : Nat → Option Nat) (k v : Nat) : Prop := ∃ j, D v = some j ∧ k < j

open Classical in
/-- The state while the vertices at distance `k` are dealt with. -/
structure B (c : Args α) (s : Nat) (D : Nat → Option Nat) (Δ : Nat → ℚ) (k : Nat) (ts : List BTask) (deltas : List ℚ) (m : Mem) (log : List AddEv) (E : Nat → ℚ) :
    Prop where
  us : (ts.map BTask.u).Nodup
  mem : ∀ v, v ∈ ts.map BTask.u ↔ D v = some k
  fwd : Fwd c s D m
  dl : Vec c.g.length E deltas
  deep : ∀ v, deeper D k v → E v = Δ v
  tk : ∀ t ∈ ts, BOk c s D Δ E k t
  rng : ∀ e ∈ log, e.1 < c.g.length
  sum : ∀ v, logSum log v = (if deeper D k v then Δ v else 0) + (ts.map fun t => if t.u = v ∧ t.pc = .done then Δ v else 0).sum

def BTask.weight (t : BTask) : Nat := (t.row.length - t.pos) + match t.pc with | .scan => 3 | .store => 2 | .add => 1 | .done => 0

variable {c : Args α} {s : Nat} {D : Nat → Option Nat} {Δ : Nat → ℚ}

section step
variable {k : Nat} {ts : List BTask} {deltas : List ℚ} {m : Mem} {log : List AddEv} {E : Nat → ℚ}

theorem B.cases (h : B c s D Δ k ts deltas m log E) {i : Nat} {t t' : BTask} (hi : ts[i]? = some t) : ∀ x ∈ ts.set i t', x = t' ∨ (x ∈ ts ∧ x.u ≠ t.u) := by
  intro x hx
  obtain ⟨j, hj⟩ := List.getElem?_of_mem hx
  rcases getElem?_set_cases hj with ⟨rfl, rfl⟩ | ⟨hne, hj'⟩
  · exact Or.inl rfl
  · refine Or.inr ⟨List.mem_of_getElem? hj', fun e => hne ?_⟩
    have h1 : (ts.map BTask.u)[i]? = some t.u := by simp [hi]
    have h2 : (ts.map BTask.u)[j]? = some t.u := by simp [hj', e]
    obtain ⟨l1, e1⟩ := List.getElem?_eq_some_iff.1 h1
    obtain ⟨l2, e2⟩ := List.getElem?_eq_some_iff.1 h2
    exact (h.us.getElem_inj_iff (hi := l1) (hj := l2)).1 (e1.trans e2.symm)

theorem map_bu_set {i : Nat} {t t' : BTask} (hi : ts[i]? = some t) (hu : t'.u = t.u) : (ts.set i t').map BTask.u = ts.map BTask.u := by
  rw [List.map_set, hu]
  apply List.ext_getElem? fun j => ?_
  rw [List.getElem?_set]
  split
  · rename_i e; subst e
    split
    · simp [hi]
    · rename_i h1; rw [List.getElem?_eq_none (by simpa using h1)]
  · rfl

theorem B.move (h : B c s D Δ k ts deltas m log E) {i : Nat} {t t' : BTask} (hi : ts[i]? = some t) (hu : t'.u = t.u) {deltas' : List ℚ} {E' : Nat → ℚ}
    {log' : List AddEv} (hdl : Vec c.g.length E' deltas') (hE : ∀ v, v ≠ t.u → E' v = E v) (hr : ∀ e ∈ log', e.1 < c.g.length)
    (hl : ∀ v, logSum log' v = logSum log v + ((if t'.u = v ∧ t'.pc = .done then Δ v else 0) - (if t.u = v ∧ t.pc = .done then Δ v else 0)))
    (hok : BOk c s D Δ E' k t') : B c s D Δ k (ts.set i t') deltas' m log' E' := by
  have hmap := map_bu_set hi hu
  have ht : t ∈ ts := List.mem_of_getElem? hi
  have htk : D t.u = some k := (h.mem t.u).1 (List.mem_map_of_mem ht)
  refine ⟨by rw [hmap]; exact h.us, fun v => by rw [hmap]; exact h.mem v, h.fwd, hdl, ?_, ?_, hr, ?_⟩
  · intro v hv
    rw [hE v, h.deep v hv]
    rintro rfl
    obtain ⟨j, h1, h2⟩ := hv
    rw [htk] at h1; cases h1; omega
  · intro x hx
    rcases h.cases hi x hx with rfl | ⟨hx', hne⟩
    · exact hok
    · have := h.tk x hx'
      exact ⟨this.row, this.pos, this.scan, this.val, fun e => by rw [hE _ hne]; exact this.stored e⟩
  · intro v
    rw [hl v, h.sum v, sum_map_set _ hi]; ring

theorem bTask_ok (hg : InRange c.g) (hs : s < c.g.length) (hD : ∀ v d, D v = some d ↔ IsDist c.g s v d) (hΔ : Rec c s D Δ)
    (h : B c s D Δ k ts deltas m log E) {i : Nat} {t : BTask} (hi : ts[i]? = some t) (hf : t.pc ≠ .done) :
    ∃ deltas' t' e E', bTask c m deltas t = .ok (deltas', t', e) ∧ B c s D Δ k (ts.set i t') deltas' m (log ++ e.toList) E' ∧ t'.weight < t.weight := by
  have ht : t ∈ ts := List.mem_of_getElem? hi
  have hu : D t.u = some k := (h.mem t.u).1 (List.mem_map_of_mem ht)
  have hun : t.u < c.g.length := D_lt hg hs hD hu
  have hok := h.tk t ht
  have hscan := hok.scan
  have hval := hok.val
  obtain ⟨u, row, pos, delta, pc⟩ := t
  simp only at hu hun hscan hval
  unfold bTask
  cases pc with
  | scan =>
    dsimp only
    by_cases hp : pos < row.length
    · rw [if_pos hp]
      obtain ⟨v, hv⟩ : ∃ v, row[pos]? = some v := ⟨_, List.getElem?_eq_getElem hp⟩
      have hrow : row = nbrs c.g u := hok.row
      have hvm : v ∈ nbrs c.g u := by rw [← hrow]; exact List.mem_of_getElem? hv
      obtain ⟨j, hDv, hj⟩ := D_next hD hu hvm
      have hvn : v < c.g.length := D_lt hg hs hD hDv
      have hb : ((nbrs c.g u).map (isNext D u))[pos]? = some (isNext D u v) := by rw [← hrow]; simp [hv]
      have htake : row.take (pos + 1) = row.take pos ++ [v] := by rw [List.take_add_one, hv]; rfl
      rw [vget_eq_ok.2 hv, res_bind_ok, h.fwd.sc u k hu, res_bind_ok, vget_eq_ok.2 hb, res_bind_ok]
      by_cases hjk : j = k + 1
      · subst hjk
        have hn : isNext D u v = true := isNext_iff.2 ⟨k, hu, hDv⟩
        rw [hn, if_pos rfl, h.fwd.pc u k hu, res_bind_ok, h.fwd.pc v _ hDv, res_bind_ok]
        have hne : nw c.g (k + 1) s v ≠ 0 := Nat.pos_iff_ne_zero.1 ((nw_pos hg).2 ((hD v _).1 hDv).1)
        rw [quot_ok hne, res_bind_ok, h.dl.vget hvn, res_bind_ok]
        refine ⟨_, _, _, E, rfl, h.move hi (by rfl) h.dl (fun _ _ => rfl) (by simpa using h.rng) (fun w => by simp) ?_, ?_⟩
        · refine ⟨hok.row, hp, fun _ => ?_, fun e => absurd rfl e, fun e => by rcases e with e | e <;> cases e⟩
          show delta + _ = ((row.take (pos + 1)).map _).sum
          rw [htake, List.map_append, List.sum_append, ← hscan rfl, h.deep v ⟨_, hDv, Nat.lt_succ_self _⟩]
          simp [part, hDv]
        · simp only [BTask.weight]; omega
      · have hn : isNext D u v = false := by
          rw [← Bool.not_eq_true, isNext_iff, hDv, hu]; simp; omega
        rw [hn, if_neg (by simp)]
        refine ⟨_, _, _, E, rfl, h.move hi (by rfl) h.dl (fun _ _ => rfl) (by simpa using h.rng) (fun w => by simp) ?_, ?_⟩
        · refine ⟨hok.row, hp, fun _ => ?_, fun e => absurd rfl e, fun e => by rcases e with e | e <;> cases e⟩
          show delta = ((row.take (pos + 1)).map _).sum
          rw [htake, List.map_append, List.sum_append, ← hscan rfl]
          simp [part, hDv, hjk]
        · simp only [BTask.weight]; omega
    · rw [if_neg hp]
      refine ⟨_, _, _, E, rfl, h.move hi (by rfl) h.dl (fun _ _ => rfl) (by simpa using h.rng) (fun w => by simp) ?_, ?_⟩
      · refine ⟨hok.row, hok.pos, fun e => (by cases e), fun _ => ?_, fun e => by rcases e with e | e <;> cases e⟩
        show delta = Δ u
        rw [hscan rfl, List.take_of_length_le (by omega), hΔ u k hu]
        have hrow : row = nbrs c.g u := hok.row
        rw [hrow]
      · simp [BTask.weight]
  | store =>
    dsimp only
    obtain ⟨e1, e2⟩ := h.dl.vset hun delta
    rw [e1, res_bind_ok]
    refine ⟨_, _, _, fun w => if w = u then delta else E w, rfl, h.move hi (by rfl) e2 (fun w hw => if_neg hw) (by simpa using h.rng) (fun w => by simp) ?_, ?_⟩
    · refine ⟨hok.row, hok.pos, fun e => (by cases e), fun _ => hval (by simp), fun _ => ?_⟩
      show (if u = u then delta else E u) = Δ u
      rw [if_pos rfl]; exact hval (by simp)
    · simp [BTask.weight]
  | add =>
    refine ⟨_, _, _, E, rfl, h.move hi (by rfl) h.dl (fun _ _ => rfl) ?_ ?_ ?_, ?_⟩
    · intro e he
      rcases List.mem_append.1 he with he | he
      · exact h.rng e he
      · simp at he; subst he; exact hun
    · intro w
      have hd : delta = Δ u := hval (by simp)
      rw [logSum_append]
      by_cases e : u = w
      · subst e; simp [logSum, hd]
      · simp [logSum, e]
    · exact ⟨hok.row, hok.pos, fun e => (by cases e), fun _ => hval (by simp), fun _ => hok.stored (Or.inl rfl)⟩
    · simp [BTask.weight]
  | done => exact absurd rfl hf

end step

theorem sum_layerQ {l : List Nat} {k : Nat} (hl : l.Nodup) (hm : ∀ v, v ∈ l ↔ D v = some k) (v : Nat) (x : ℚ) :
    (l.map fun u => if u = v then x else 0).sum = if D v = some k then x else 0 := by
  have h1 : ∀ l : List Nat, l.Nodup → (l.map fun u => if u = v then x else 0).sum = if v ∈ l then x else 0 := by
    intro l
    induction l with
    | nil => intro _; simp
    | cons a l ih =>
      intro h
      have ⟨h1, h2⟩ := List.nodup_cons.1 h
      rw [List.map_cons, List.sum_cons, ih h2]
      by_cases e : a = v
      · subst e; simp [h1]
      · have : ¬ v = a := fun e' => e e'.symm
        simp [e, this]
  rw [h1 l hl]
  simp only [hm]

/-- On to the next queue. -/
theorem B.next {k : Nat} {ts : List BTask} {deltas : List ℚ} {m : Mem} {log : List AddEv} {E : Nat → ℚ} (h : B c s D Δ (k + 1) ts deltas m log E)
    (hf : ∀ t ∈ ts, t.pc = .done) {q : List (List Nat)} (hq : Layer D q k) : B c s D Δ k (q.flatten.map (newB c.g)) deltas m log E where
  us := by
    rw [List.map_map]
    have : BTask.u ∘ newB c.g = id := rfl
    rw [this, List.map_id]; exact hq.1
  mem := by
    intro v
    rw [List.map_map]
    have : BTask.u ∘ newB c.g = id := rfl
    rw [this, List.map_id]; exact hq.2 v
  fwd := h.fwd
  dl := h.dl
  deep := by
    rintro v ⟨j, h1, h2⟩
    by_cases hj : j = k + 1
    · subst hj
      obtain ⟨t, ht, rfl⟩ := List.mem_map.1 ((h.mem v).2 h1)
      exact (h.tk t ht).stored (Or.inr (hf t ht))
    · exact h.deep v ⟨j, h1, by omega⟩
  tk := by
    intro t ht
    obtain ⟨u, hu, rfl⟩ := List.mem_map.1 ht
    exact ⟨rfl, Nat.zero_le _, fun _ => by simp [newB], fun e => absurd rfl e, fun e => by rcases e with e | e <;> cases e⟩
  rng := h.rng
  sum := by
    intro v
    have h1 : (ts.map fun t => if t.u = v ∧ t.pc = .done then Δ v else 0) = (ts.map BTask.u).map fun u => if u = v then Δ v else 0 := by
      rw [List.map_map]
      apply List.map_congr_left
      intro t ht
      simp [hf t ht]
    have h2 : ((q.flatten.map (newB c.g)).map fun t => if t.u = v ∧ t.pc = .done then Δ v else 0).sum = 0 := by
      rw [List.map_map]
      apply List.sum_eq_zero
      intro x hx
      obtain ⟨u, -, rfl⟩ := List.mem_map.1 hx
      simp [newB]
    rw [h.sum v, h1, sum_layerQ h.us h.mem, h2]
    by_cases hd : deeper D (k + 1) v
    · obtain ⟨j, h3, h4⟩ := hd
      rw [if_pos ⟨j, h3, h4⟩, if_neg (by rw [h3]; simp; omega), if_pos ⟨j, h3, by omega⟩]
    · rw [if_neg hd]
      by_cases hv : D v = some (k + 1)
      · rw [if_pos hv, if_pos ⟨_, hv, Nat.lt_succ_self _⟩]; simp
      · rw [if_neg hv, if_neg]
        rintro ⟨j, h3, h4⟩
        by_cases hj : j = k + 1
        · subst hj; exact hv h3
        · exact hd ⟨j, h3, by omega⟩

/-- The end. -/
theorem B.final {ts : List BTask} {deltas : List ℚ} {m : Mem} {log : List AddEv} {E : Nat → ℚ} (h : B c s D Δ 0 ts deltas m log E)
    (hf : ∀ t ∈ ts, t.pc = .done) (v : Nat) : logSum log v = if (D v).isSome then Δ v else 0 := by
  have h1 : (ts.map fun t => if t.u = v ∧ t.pc = .done then Δ v else 0) = (ts.map BTask.u).map fun u => if u = v then Δ v else 0 := by
    rw [List.map_map]
    apply List.map_congr_left
    intro t ht
    simp [hf t ht]
  rw [h.sum v, h1, sum_layerQ h.us h.mem]
  cases hv : D v with
  | none =>
    rw [if_neg]
    · simp
    · rintro ⟨j, h3, -⟩; rw [hv] at h3; cases h3
  | some j =>
    by_cases hj : j = 0
    · subst hj
      rw [if_neg]
      · simp
      · rintro ⟨j, h3, h4⟩; rw [hv] at h3; cases h3; omega
    · rw [if_pos ⟨j, hv, by omega⟩]; simp [hj]

/-! ### The thread -/

/-- The states of the thread of `s`. -/
inductive Inv (c : Args α) (s : Nat) (D : Nat → Option Nat) (Δ : Nat → ℚ) : Th × List AddEv → Prop
  | start : Inv c s D Δ (.start s, [])
  | fwd {k : Nat} {L G : Nat → Nat} {S : Nat → List Bool} {ts : List FTask} {q1 q2 : List (List Nat)} {retired : List (List (List Nat))} {m : Mem}
      (h : F c s D k L G S ts q2 m) (hq : Layer D q1 k) (hr : Layers D retired k) (hk : k < c.g.length) : Inv c s D Δ (.fwd ts q1 q2 retired m (k + 1), [])
  | back {k : Nat} {todo : List (List (List Nat))} {ts : List BTask} {deltas : List ℚ} {m : Mem} {log : List AddEv} {E : Nat → ℚ}
      (h : B c s D Δ k ts deltas m log E) (hr : Layers D todo k) : Inv c s D Δ (.back todo ts deltas m, log)

def meas (n : Nat) (x : Th × List AddEv) : Nat × Nat :=
  match x.1 with
  | .start _ => (3 * n + 9, 0)
  | .fwd ts _ _ _ _ lvl => ((n + 2) + (n + 2 - lvl), (ts.map FTask.weight).sum)
  | .back todo ts _ _ => (todo.length, (ts.map BTask.weight).sum)

theorem init_ok (hg : InRange c.g) (hs : s < c.g.length) (hD : ∀ v d, D v = some d ↔ IsDist c.g s v d) (hb : 0 < c.bins) (hinf : c.g.length < c.inf) (hM : 1 < c.M) :
    ∃ x, init c s = .ok x ∧ Inv c s D Δ (x, []) ∧ Prod.Lex Nat.lt Nat.lt (meas c.g.length (x, [])) (meas c.g.length (.start s, [])) := by
  have hDs : D s = some 0 := (hD s 0).2 (.zero _ _)
  have hD0 : ∀ v, D v = some 0 → v = s := fun v hv => ((hD v 0).1 hv).of_zero
  unfold init
  obtain ⟨e1, e2⟩ := (Vec.replicate c.g.length 0).vset hs 1
  obtain ⟨e3, e4⟩ := (Vec.replicate c.g.length c.inf).vset hs 0
  have hfl : ((List.replicate c.bins ([] : List Nat)).set 0 [s]).flatten = [s] := by
    obtain ⟨b, hb'⟩ : ∃ b, c.bins = b + 1 := ⟨c.bins - 1, by omega⟩
    rw [hb', List.replicate_succ, List.set_cons_zero, List.flatten_cons, List.flatten_replicate_nil]; rfl
  have hlay : Layer D ((List.replicate c.bins ([] : List Nat)).set 0 [s]) 0 := by
    refine ⟨by rw [hfl]; simp, fun v => ?_⟩
    rw [hfl, List.mem_singleton]
    exact ⟨fun e => e ▸ hDs, hD0 v⟩
  rw [e1, res_bind_ok, vset_of_lt (by simpa using hb), res_bind_ok, e3, res_bind_ok,
    mapM_ok_of_forall (g := newF c.g) fun u hu => mkF_ok (D_lt hg hs hD ((hlay.2 u).1 hu)), res_bind_ok]
  refine ⟨_, rfl, ?_, ?_⟩
  · refine .fwd (k := 0) (L := fun w => if w = s then 0 else c.inf) (G := fun w => if w = s then 1 else 0)
      (S := fun u => List.replicate (nbrs c.g u).length false) (Pre.start ⟨e4, ?_, ?_, ?_, ?_, ?_, ?_, ?_, ?_⟩ hg hs hD (by omega) hlay) hlay trivial (by omega)
    · intro v j hv hj
      obtain rfl : j = 0 := by omega
      exact if_pos (hD0 v hv)
    · intro v _ hv
      refine if_neg ?_
      rintro rfl
      have := hv 0 hDs; omega
    · refine e2.congr fun v _ => ?_
      show (if v = s then 1 else 0) = (if v = s then 1 else 0) % c.M
      split
      · rw [Nat.mod_eq_of_lt hM]
      · rw [Nat.zero_mod]
    · intro v j hv hj
      obtain rfl : j = 0 := by omega
      have := hD0 v hv
      subst this
      rw [nw_zero]
    · intro v hv
      refine if_neg ?_
      rintro rfl
      have := hv 0 hDs; omega
    · refine ⟨by simp, fun v hv => ?_⟩
      rw [List.getElem?_map, List.getElem?_eq_getElem hv]
      simp [nbrs, hv]
    · intro u j _ hj; omega
    · intro u _ _; rfl
  · left
    show (c.g.length + 2) + (c.g.length + 2 - (0 + 1)) < 3 * c.g.length + 9
    omega

/-- What the thread of `s` adds. -/
def Adds (c : Args α) (D : Nat → Option Nat) (Δ : Nat → ℚ) (log : List AddEv) : Prop :=
  (∀ e ∈ log, e.1 < c.g.length) ∧ ∀ v, logSum log v = if (D v).isSome then Δ v else 0

theorem thread_sure (hg : InRange c.g) (hs : s < c.g.length) (hD : ∀ v d, D v = some d ↔ IsDist c.g s v d) (hb : 0 < c.bins) (hinf : c.g.length < c.inf)
    (hfit : ∀ v d, D v = some d → nw c.g d s v < c.M) (hΔ : Rec c s D Δ) : Sure (Logged (TStep c)) (Adds c D Δ) (.start s, []) := by
  have hM : 1 < c.M := by
    have := hfit s 0 ((hD s 0).2 (.zero _ _))
    rwa [nw_zero, if_pos rfl] at this
  refine Sure.of_inv (Prod.lex Nat.lt_wfRel Nat.lt_wfRel).wf (meas c.g.length) (Inv c s D Δ) ?_ ?_ _ .start
  · rintro x hx
    cases hx with
    | start =>
      obtain ⟨x, h1, -⟩ := init_ok (Δ := Δ) hg hs hD hb hinf hM
      have := TStep.start (c := c) (root := s)
      rw [h1] at this
      exact ⟨_, .go this⟩
    | @fwd k L G S ts q1 q2 retired m h hq hr hk =>
      by_cases hall : ∀ t ∈ ts, t.finished
      · have := TStep.fJoin (c := c) (q1 := q1) (q2 := q2) (retired := retired) (m := m) (lvl := k + 1) hall
        cases hj : fJoin c q1 q2 retired m (k + 1) with
        | error f => rw [hj] at this; exact ⟨_, .fault this⟩
        | ok x => rw [hj] at this; exact ⟨_, .go this⟩
      · push Not at hall
        obtain ⟨t, ht, hf⟩ := hall
        obtain ⟨i, hi⟩ := List.getElem?_of_mem ht
        have := TStep.fStep (c := c) (q1 := q1) (q2 := q2) (retired := retired) (m := m) (lvl := k + 1) hi hf
        cases hj : fTask c (k + 1) q2 m t with
        | error f => rw [hj] at this; exact ⟨_, .fault this⟩
        | ok x => rw [hj] at this; exact ⟨_, .go this⟩
    | @back k todo ts deltas m log E h hr =>
      by_cases hall : ∀ t ∈ ts, t.pc = .done
      · have := TStep.bJoin (c := c) (todo := todo) (deltas := deltas) (m := m) hall
        cases hj : bJoin c todo deltas m with
        | error f => rw [hj] at this; exact ⟨_, .fault this⟩
        | ok x =>
          rw [hj] at this
          rcases x with ⟨x, e⟩ | ⟨⟨⟩⟩
          · exact ⟨_, .go this⟩
          · exact ⟨_, .stop this⟩
      · push Not at hall
        obtain ⟨t, ht, hf⟩ := hall
        obtain ⟨i, hi⟩ := List.getElem?_of_mem ht
        have := TStep.bStep (c := c) (todo := todo) (deltas := deltas) (m := m) hi hf
        cases hj : bTask c m deltas t with
        | error f => rw [hj] at this; exact ⟨_, .fault this⟩
        | ok x => rw [hj] at this; exact ⟨_, .go this⟩
  · rintro x o hx ho
    cases hx with
    | start =>
      obtain ⟨x, h1, h2, h3⟩ := init_ok (Δ := Δ) hg hs hD hb hinf hM
      have key : ∀ o', TStep c (.start s) o' → o' = .ok (.inl (x, none)) := by
        intro o' h
        cases h with
        | start => rw [h1]; rfl
      cases ho with
      | go h => cases key _ h; exact Or.inl ⟨_, rfl, by simpa using h2, h3⟩
      | fault h => cases key _ h
      | stop h => cases key _ h
    | @fwd k L G S ts q1 q2 retired m h hq hr hk =>
      have hinf' : k + 1 < c.inf := by omega
      have key : ∀ o', TStep c (.fwd ts q1 q2 retired m (k + 1)) o' → ∃ x, o' = .ok (.inl (x, none)) ∧ Inv c s D Δ (x, []) ∧
          Prod.Lex Nat.lt Nat.lt (meas c.g.length (x, [])) (meas c.g.length (.fwd ts q1 q2 retired m (k + 1), [])) := by
        intro o' h'
        cases h' with
        | fStep hi hf =>
          obtain ⟨q2', m', t', L', G', S', e, hF, hw⟩ := fTask_ok hg hs hD hb hinf' h hi hf
          rw [e]
          refine ⟨_, rfl, .fwd hF hq hr hk, ?_⟩
          exact Prod.Lex.right _ (sum_map_set_lt _ hi hw)
        | fJoin hf =>
          obtain ⟨hl, hp⟩ := h.join hg hs hD hinf' hf
          unfold fJoin
          by_cases hem : q2.all List.isEmpty = true
          · rw [if_pos hem]
            have hnone : ∀ v, D v ≠ some (k + 1) := by
              intro v hv
              have := (hl.2 v).2 hv
              obtain ⟨l, h1, h2⟩ := List.mem_flatten.1 this
              have := List.all_eq_true.1 hem l h1
              rw [List.isEmpty_iff] at this
              subst this; simp at h2
            have hle : ∀ v j, D v = some j → j ≤ k := by
              intro v j hv
              by_contra hlt
              obtain ⟨w, hw⟩ := ((hD v j).1 hv).down (j := k + 1) (by omega)
              exact hnone w ((hD w _).2 hw)
            refine ⟨_, rfl, .back (k := k + 1) (E := fun _ => 0) ⟨by simp, ?_, ⟨?_, ?_⟩, Vec.replicate _ _, ?_, by simp, by simp, ?_⟩ ⟨hq, hr⟩, ?_⟩
            · intro v; simpa using hnone v
            · intro v j hv
              rw [hp.cnt.vget (D_lt hg hs hD hv), hp.gold v j hv (by have := hle v j hv; omega), Nat.mod_eq_of_lt (hfit v j hv)]
            · intro u j hu
              rw [hp.sc.vget (D_lt hg hs hD hu), hp.sold u j hu (by have := hle u j hu; omega)]
            · rintro v ⟨j, h1, h2⟩
              have := hle v j h1; omega
            · intro v
              rw [if_neg]
              · simp [logSum]
              · rintro ⟨j, h1, h2⟩
                have := hle v j h1; omega
            · left
              show retired.length + 1 < (c.g.length + 2) + (c.g.length + 2 - (k + 1))
              rw [hr.length]; omega
          · rw [if_neg hem, mapM_ok_of_forall (g := newF c.g) fun u hu => mkF_ok (D_lt hg hs hD ((hl.2 u).1 hu)), res_bind_ok]
            have hk' : k + 1 < c.g.length := by
              have : q2.flatten ≠ [] := by
                intro e
                apply hem
                rw [List.all_eq_true]
                intro l hl'
                rw [List.isEmpty_iff]
                exact List.flatten_eq_nil_iff.1 e l hl'
              obtain ⟨v, hv⟩ := List.exists_mem_of_ne_nil _ this
              exact D_bound hg hs hD ((hl.2 v).1 hv)
            refine ⟨_, rfl, .fwd (hp.start hg hs hD (by omega) hl) hl ⟨hq, hr⟩ hk', ?_⟩
            left
            show (c.g.length + 2) + (c.g.length + 2 - (k + 1 + 1)) < (c.g.length + 2) + (c.g.length + 2 - (k + 1))
            omega
      cases ho with
      | go h =>
        obtain ⟨x, e, h2, h3⟩ := key _ h
        cases e; exact Or.inl ⟨_, rfl, by simpa using h2, h3⟩
      | fault h => obtain ⟨x, e, -⟩ := key _ h; cases e
      | stop h => obtain ⟨x, e, -⟩ := key _ h; cases e
    | @back k todo ts deltas m log E h hr =>
      have key : ∀ o', TStep c (.back todo ts deltas m) o' → (∃ x e, o' = .ok (.inl (x, e)) ∧ Inv c s D Δ (x, log ++ e.toList) ∧
          Prod.Lex Nat.lt Nat.lt (meas c.g.length (x, log ++ e.toList)) (meas c.g.length (.back todo ts deltas m, log))) ∨ (o' = .ok (.inr ()) ∧ Adds c D Δ log) := by
        intro o' h'
        cases h' with
        | bStep hi hf =>
          obtain ⟨deltas', t', e, E', he, hB, hw⟩ := bTask_ok hg hs hD hΔ h hi hf
          rw [he]
          exact Or.inl ⟨_, _, rfl, .back hB hr, Prod.Lex.right _ (sum_map_set_lt _ hi hw)⟩
        | bJoin hf =>
          cases todo with
          | nil =>
            cases k with
            | zero => exact Or.inr ⟨rfl, h.rng, h.final hf⟩
            | succ k => exact hr.elim
          | cons q todo =>
            cases k with
            | zero => exact hr.elim
            | succ k =>
              have := h.next hf hr.1
              left
              unfold bJoin
              dsimp only
              rw [mapM_ok_of_forall (g := newB c.g) fun u hu => mkB_ok (D_lt hg hs hD ((hr.1.2 u).1 hu)), res_bind_ok]
              refine ⟨_, _, rfl, by simpa using Inv.back this hr.2, ?_⟩
              left
              exact Nat.lt_succ_self _
      cases ho with
      | go h =>
        rcases key _ h with ⟨x, e, h1, h2, h3⟩ | ⟨h1, -⟩
        · cases h1; exact Or.inl ⟨_, rfl, h2, h3⟩
        · cases h1
      | fault h => rcases key _ h with ⟨x, e, h1, h2, h3⟩ | ⟨h1, -⟩ <;> cases h1
      | stop h =>
        rcases key _ h with ⟨x, e, h1, h2, h3⟩ | ⟨h1, h2⟩
        · cases h1
        · exact Or.inr ⟨_, rfl, h2⟩

end NW.BrandesPar
