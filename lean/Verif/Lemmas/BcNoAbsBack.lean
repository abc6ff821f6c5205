import Verif.Lemmas.BcNoAbsRun
import Verif.Lemmas.BcAsyncBack

/-! # Lemmas: the way back with buffers and locks loses nothing -/

namespace NW.BcNoAbs
open Spec Fifo
open NW.Brandes (Vec)
open NW.BcWork (Node)
open NW.BcAsync (pt Found filter_drop sum_map_set)

/-- What `w` adds to `u`, before the multiplication with the path count of `u`. -/
def pu (F : Nat → Node) (dep : Nat → ℚ) (u w : Nat) : ℚ := if u ∈ (F w).preds then (1 + dep w) / ((F w).pc : ℚ) else 0

theorem pt_pu (F : Nat → Node) (dep : Nat → ℚ) (u w : Nat) : pt F dep u w = pu F dep u w * ((F u).pc : ℚ) := by
  unfold pt pu
  split
  · ring
  · ring

/-- The vertices a thread has. -/
def Thr.held : Thr → List Nat
  | .look buf => buf
  | .proc v _ _ buf => v :: buf
  | .ended => []

theorem flatMap_set {ts : List Thr} {i : Nat} {t : Thr} (h : ts[i]? = some t) :
    ∃ R : List Nat, (ts.flatMap Thr.held).Perm (t.held ++ R) ∧ (∀ t' : Thr, ((ts.set i t').flatMap Thr.held).Perm (t'.held ++ R)) ∧
      ∀ (j : Nat) (t2 : Thr), j ≠ i → ts[j]? = some t2 → ∀ x ∈ t2.held, x ∈ R := by
  induction ts generalizing i with
  | nil => simp at h
  | cons x xs ih =>
    cases i with
    | zero =>
      simp at h; subst h
      refine ⟨xs.flatMap Thr.held, by simp, fun t' => by simp, ?_⟩
      intro j t2 hj h2 y hy
      cases j with
      | zero => exact absurd rfl hj
      | succ j =>
        simp at h2
        exact List.mem_flatMap.2 ⟨t2, List.mem_of_getElem? h2, hy⟩
    | succ i =>
      simp at h
      obtain ⟨R, h1, h2, h3⟩ := ih h
      refine ⟨x.held ++ R, ?_, ?_, ?_⟩
      · rw [List.flatMap_cons, List.perm_iff_count]
        intro a
        have := List.perm_iff_count.1 h1 a
        simp only [List.count_append] at this ⊢
        omega
      · intro t'
        rw [List.set_cons_succ, List.flatMap_cons, List.perm_iff_count]
        intro a
        have := List.perm_iff_count.1 (h2 t') a
        simp only [List.count_append] at this ⊢
        omega
      · intro j t2 hj hj2 y hy
        cases j with
        | zero =>
          simp at hj2; subst hj2
          exact List.mem_append_left _ hy
        | succ j =>
          simp at hj2
          exact List.mem_append_right _ (h3 j t2 (fun hh => hj (by rw [hh])) hj2 y hy)

/-- The vertices that are or have been in the queue or a buffer; `fin` are those whose score has been added. -/
def placed (fin : List Nat) (st : BSt) : List Nat := st.q ++ (fin ++ st.ts.flatMap Thr.held)

/-- What holds between the steps: `A u w` says that `w` has added its part to `u`. -/
structure BI (n s : Nat) (dep c0 : Nat → ℚ) (F : Nat → Node) (A : Nat → Nat → Bool) (fin : List Nat) (st : BSt) : Prop where
  delta : Vec n (fun u => if u ∈ placed fin st then dep u else ∑ w ∈ Finset.range n, if A u w then pu F dep u w else 0) st.delta
  ct : Vec n (fun u => ((F u).succs.filter fun w => !A u w).length) st.ct
  cent : Vec n (fun v => c0 v + if v ∈ fin then dep v else 0) st.cent
  nodup : (placed fin st).Nodup
  mem : ∀ v, v ∈ placed fin st ↔ v < n ∧ (∀ w ∈ (F v).succs, A v w = true) ∧ (v ≠ s ∨ (F s).succs = [])
  sub : ∀ u w, A u w = true → w < n ∧ u ∈ (F w).preds
  afin : ∀ w ∈ fin, ∀ u ∈ (F w).preds, A u w = true
  aproc : ∀ (i v : Nat) (temp : ℚ) (us buf : List Nat), st.ts[i]? = some (.proc v temp us buf) → temp = (1 + dep v) / ((F v).pc : ℚ) ∧ us.Nodup ∧ (∀ u ∈ us, u ∈ (F v).preds) ∧ ∀ u ∈ (F v).preds, (A u v = true ↔ u ∉ us)
  anone : ∀ u w, A u w = true → w ∈ fin ∨ ∃ (i : Nat) (temp : ℚ) (us buf : List Nat), st.ts[i]? = some (.proc w temp us buf)
  live : 0 < st.ts.length → (∃ t ∈ st.ts, t ≠ Thr.ended) ∨ st.q = []
  lock : ∀ u ∈ st.locked, u ∈ placed fin st

/-- What a thread has to do. -/
def wt (n : Nat) : Thr → Nat
  | .look buf => 1 + (n + 3) * buf.length
  | .proc _ _ us buf => 2 + us.length + (n + 3) * buf.length
  | .ended => 0

/-- What is left to do. -/
def todo (n : Nat) (fin : List Nat) (st : BSt) : Nat := (n + 3) * (n - (placed fin st).length) + (n + 3) * st.q.length + (st.ts.map (wt n)).sum

variable {n s : Nat} {dep c0 : Nat → ℚ} {F : Nat → Node} {vs : List Node} {A : Nat → Nat → Bool} {fin : List Nat} {st : BSt}

/-- A step that changes neither `delta` nor `succs_ct`. -/
theorem BI.move (h : BI n s dep c0 F A fin st) {i : Nat} {t t' : Thr} (ht : st.ts[i]? = some t) {q' fin' : List Nat} {cent' : List ℚ}
    (hcent : Vec n (fun v => c0 v + if v ∈ fin' then dep v else 0) cent') (hp : (placed fin' { st with q := q', cent := cent', ts := st.ts.set i t' }).Perm (placed fin st))
    (hfin : ∀ w ∈ fin', w ∈ fin ∨ ∀ u ∈ (F w).preds, A u w = true)
    (hproc : ∀ v temp us buf, t' = .proc v temp us buf → temp = (1 + dep v) / ((F v).pc : ℚ) ∧ us.Nodup ∧ (∀ u ∈ us, u ∈ (F v).preds) ∧ ∀ u ∈ (F v).preds, (A u v = true ↔ u ∉ us))
    (hnone : ∀ u w, A u w = true → (w ∈ fin → w ∈ fin') ∧ ((∃ temp us buf, t = .proc w temp us buf) → w ∈ fin' ∨ ∃ temp us buf, t' = .proc w temp us buf))
    (hlive : t' ≠ .ended ∨ q' = []) : BI n s dep c0 F A fin' { st with q := q', cent := cent', ts := st.ts.set i t' } := by
  refine ⟨?_, h.ct, hcent, hp.nodup_iff.2 h.nodup, fun v => by rw [hp.mem_iff]; exact h.mem v, h.sub, ?_, ?_, ?_, ?_, fun u hu => hp.mem_iff.2 (h.lock u hu)⟩
  · simp only [hp.mem_iff]; exact h.delta
  · intro w hw u hu
    rcases hfin w hw with k | k
    · exact h.afin w k u hu
    · exact k u hu
  · intro j v temp us buf hj
    rcases getElem?_set_cases hj with ⟨rfl, e⟩ | ⟨-, e⟩
    · exact hproc v temp us buf e.symm
    · exact h.aproc j v temp us buf e
  · intro u w huw
    rcases h.anone u w huw with k | ⟨j, temp, us, buf, k⟩
    · exact Or.inl ((hnone u w huw).1 k)
    · by_cases c : i = j
      · subst c
        rw [ht] at k; cases k
        rcases (hnone u w huw).2 ⟨temp, us, buf, rfl⟩ with k | ⟨temp', us', buf', k⟩
        · exact Or.inl k
        · exact Or.inr ⟨i, temp', us', buf', by rw [← k]; exact getElem?_set_same ht⟩
      · exact Or.inr ⟨j, temp, us, buf, by
          show (st.ts.set i t')[j]? = _
          rw [getElem?_set_other c]; exact k⟩
  · intro _
    rcases hlive with k | k
    · exact Or.inl ⟨t', List.mem_of_getElem? (getElem?_set_same ht), k⟩
    · exact Or.inr k

theorem BI.placed_lt (h : BI n s dep c0 F A fin st) {v : Nat} (hv : v ∈ placed fin st) : v < n := ((h.mem v).1 hv).1

/-- `delta` of a placed vertex is its dependency. -/
theorem BI.complete (h : BI n s dep c0 F A fin st) {v : Nat} (hv : v ∈ placed fin st) : vget st.delta v = .ok (dep v) := by
  rw [h.delta.vget (h.placed_lt hv), if_pos hv]

theorem held_placed {i : Nat} {t : Thr} (ht : st.ts[i]? = some t) {x : Nat} (hx : x ∈ t.held) : x ∈ placed fin st := by
  unfold placed
  simp only [List.mem_append]
  exact Or.inr (Or.inr (List.mem_flatMap.2 ⟨t, List.mem_of_getElem? ht, hx⟩))

/-- Taking a vertex. -/
theorem BI.begin (h : BI n s dep c0 F A fin st) (hF : Found n s dep F vs) {v : Nat} (hv : v ∈ placed fin st) (buf : List Nat) :
    begin vs st.delta v buf = .ok (.proc v ((1 + dep v) / ((F v).pc : ℚ)) (F v).preds buf) := by
  unfold BcNoAbs.begin
  rw [h.complete hv, res_bind_ok, hF.vec.vget (h.placed_lt hv), res_bind_ok]; rfl

/-- A vertex in the queue or in a buffer has not added anything yet. -/
theorem BI.untouched (h : BI n s dep c0 F A fin st) {v : Nat} (hv1 : v ∉ fin) (hv2 : ∀ (i : Nat) (temp : ℚ) (us buf : List Nat), st.ts[i]? ≠ some (.proc v temp us buf)) (u : Nat) : A u v = false := by
  cases hA : A u v with
  | false => rfl
  | true =>
    rcases h.anone u v hA with k | ⟨i, temp, us, buf, k⟩
    · exact absurd k hv1
    · exact absurd k (hv2 i temp us buf)

/-- Where a vertex is, it is only once. -/
theorem BI.once (h : BI n s dep c0 F A fin st) {v : Nat} : st.q.count v + (fin.count v + (st.ts.flatMap Thr.held).count v) ≤ 1 := by
  have := List.nodup_iff_count_le_one.1 h.nodup v
  unfold placed at this
  simpa only [List.count_append] using this

theorem nmem_of_count {l : List Nat} {v : Nat} (h : l.count v = 0) : v ∉ l := List.count_eq_zero.1 h

theorem preds_len (hF : Found n s dep F vs) {v : Nat} (hv : v < n) : (F v).preds.length ≤ n := nodup_length_le (hF.pn v hv) fun u hu => (hF.pl v hv u hu).1

theorem locked_free (h : BI n s dep c0 F A fin st) (hF : Found n s dep F vs) {i v : Nat} {temp : ℚ} {u : Nat} {us buf : List Nat} (ht : st.ts[i]? = some (.proc v temp (u :: us) buf)) :
    u ∉ placed fin st ∧ A u v = false ∧ v < n ∧ u < n ∧ v ∈ (F u).succs ∧ u ∈ (F v).preds := by
  have hvn : v < n := h.placed_lt (held_placed ht (by simp [Thr.held]))
  obtain ⟨-, k1, k2, k3⟩ := h.aproc i v temp (u :: us) buf ht
  have hup : u ∈ (F v).preds := k2 u (by simp)
  obtain ⟨hun, huv⟩ := hF.pl v hvn u hup
  have hAuv : A u v = false := by
    cases hA : A u v with
    | false => rfl
    | true => exact absurd (by simp) ((k3 u hup).1 hA)
  have hvs : v ∈ (F u).succs := (hF.sp u hun v).2 ⟨hvn, hup⟩
  refine ⟨fun hh => ?_, hAuv, hvn, hun, hvs, hup⟩
  have := ((h.mem u).1 hh).2.1 v hvs
  rw [hAuv] at this; cases this

/-- One predecessor. -/
theorem pred_step (locks : Bool) (h : BI n s dep c0 F A fin st) (hF : Found n s dep F vs) {i v : Nat} {temp : ℚ} {u : Nat} {us buf : List Nat} (ht : st.ts[i]? = some (.proc v temp (u :: us) buf)) :
    ∃ st', backPred vs s locks st i v temp u us buf = .ok st' ∧ (∃ A', BI n s dep c0 F A' fin st') ∧ st'.ts.length = st.ts.length ∧ todo n fin st' < todo n fin st := by
  obtain ⟨R, r1, r2, r3⟩ := flatMap_set ht
  obtain ⟨hup', hAuv, hvn, hun, hvs, hup⟩ := locked_free h hF ht
  obtain ⟨k0, k1, k2, k3⟩ := h.aproc i v temp (u :: us) buf ht
  have hus : u ∉ us := (List.nodup_cons.1 k1).1
  obtain ⟨A', hA'⟩ : ∃ A' : Nat → Nat → Bool, ∀ x y, A' x y = (A x y || (decide (x = u) && decide (y = v))) := ⟨_, fun _ _ => rfl⟩
  have hA1 : ∀ x y, x ≠ u → A' x y = A x y := fun x y hx => by rw [hA']; simp [hx]
  have hA2 : ∀ y, A' u y = (A u y || decide (y = v)) := fun y => by rw [hA']; simp
  have hA3 : ∀ x y, A' x y = true ↔ A x y = true ∨ (x = u ∧ y = v) := fun x y => by rw [hA']; simp
  have hdrop := filter_drop (hF.sn u hun) (p := A u) hvs hAuv
  have hcu : ((F u).succs.filter fun w => !A u w).length ≠ 0 := by omega
  have hcnew : ((F u).succs.filter fun w => !A' u w).length = ((F u).succs.filter fun w => !A u w).length - 1 := by
    have : ((F u).succs.filter fun w => !A' u w) = (F u).succs.filter fun w => !(A u w || decide (w = v)) := by
      apply List.filter_congr
      intro w _
      rw [hA2]
    rw [this]; omega
  have hdu : vget st.delta u = .ok (∑ w ∈ Finset.range n, if A u w then pu F dep u w else 0) := by
    rw [h.delta.vget hun, if_neg hup']
  have hsum : (∑ w ∈ Finset.range n, if A u w then pu F dep u w else 0) + temp = ∑ w ∈ Finset.range n, if A' u w then pu F dep u w else 0 := by
    have : ∀ w ∈ Finset.range n, (if A' u w = true then pu F dep u w else 0) = (if A u w = true then pu F dep u w else 0) + if w = v then temp else 0 := by
      intro w _
      rw [hA2]
      by_cases d : w = v
      · subst d
        simp [hAuv, pu, hup, k0]
      · simp [d]
    rw [Finset.sum_congr rfl this, Finset.sum_add_distrib]
    congr 1
    rw [Finset.sum_ite_eq', if_pos (by simpa using hvn)]
  have hsumc : (∀ w ∈ (F u).succs, A' u w = true) → (∑ w ∈ Finset.range n, if A' u w then pu F dep u w else 0) * ((F u).pc : ℚ) = dep u := by
    intro hall
    rw [← hF.total u hun, Finset.sum_mul]
    refine Finset.sum_congr rfl fun w hw => ?_
    rw [Finset.mem_range] at hw
    rw [pt_pu]
    split
    · rfl
    · rename_i c
      have : pu F dep u w = 0 := by
        unfold pu
        rw [if_neg fun hh => c (hall w ((hF.sp u hun w).2 ⟨hw, hh⟩))]
      rw [this]
  obtain ⟨e1, e2⟩ := h.delta.vset hun ((∑ w ∈ Finset.range n, if A u w then pu F dep u w else 0) + temp)
  obtain ⟨e3, e4⟩ := h.ct.vset hun (((F u).succs.filter fun w => !A u w).length - 1)
  obtain ⟨e5, e6⟩ := e2.vset hun (((∑ w ∈ Finset.range n, if A u w then pu F dep u w else 0) + temp) * ((F u).pc : ℚ))
  generalize hD2 : (st.delta.set u ((∑ w ∈ Finset.range n, if A u w then pu F dep u w else 0) + temp)).set u (((∑ w ∈ Finset.range n, if A u w then pu F dep u w else 0) + temp) * ((F u).pc : ℚ)) = D2 at e5 e6
  generalize hD : st.delta.set u ((∑ w ∈ Finset.range n, if A u w then pu F dep u w else 0) + temp) = D at e1 e2 e5 e6
  generalize hC : st.ct.set u (((F u).succs.filter fun w => !A u w).length - 1) = C at e3 e4
  -- what holds for any result that differs in where `u` has been put
  have main : ∀ (D' : List ℚ) (q' : List Nat) (t' : Thr) (l' : List Nat) (add : Prop) [Decidable add], (add ↔ (∀ w ∈ (F u).succs, A' u w = true) ∧ u ≠ s) →
      Vec n (fun z => if z = u ∧ add then dep u else if z ∈ placed fin st then dep z else ∑ w ∈ Finset.range n, if A' z w then pu F dep z w else 0) D' →
      (∀ a, (placed fin { st with q := q', delta := D', ct := C, locked := l', ts := st.ts.set i t' }).count a ≤ (u :: placed fin st).count a) →
      (∀ x, x ∈ placed fin { st with q := q', delta := D', ct := C, locked := l', ts := st.ts.set i t' } ↔ x ∈ placed fin st ∨ (x = u ∧ add)) →
      (∀ x ∈ l', x ∈ st.locked ∨ (x = u ∧ add)) → (∃ buf', t' = .proc v temp us buf') →
      BI n s dep c0 F A' fin { st with q := q', delta := D', ct := C, locked := l', ts := st.ts.set i t' } := by
    rintro D' q' t' l' add _ hadd hD' hcount hpl hl' ⟨buf', rfl⟩
    refine ⟨?_, ?_, h.cent, ?_, ?_, ?_, ?_, ?_, ?_, ?_, ?_⟩
    · refine hD'.congr fun z hz => ?_
      simp only [hpl]
      by_cases c : z = u ∧ add
      · rw [if_pos c, if_pos (Or.inr c), c.1]
      · rw [if_neg c]
        by_cases d : z ∈ placed fin st
        · rw [if_pos d, if_pos (Or.inl d)]
        · rw [if_neg d, if_neg (by rintro (k | k); exacts [d k, c k])]
    · refine e4.congr fun z hz => ?_
      by_cases c : z = u
      · subst c
        rw [if_pos rfl, hcnew]
      · rw [if_neg c]
        congr 1
        exact List.filter_congr fun w _ => by rw [hA1 z w c]
    · have hnd : (u :: placed fin st).Nodup := List.nodup_cons.2 ⟨hup', h.nodup⟩
      rw [List.nodup_iff_count_le_one]
      intro a
      exact (hcount a).trans (List.nodup_iff_count_le_one.1 hnd a)
    · intro x
      rw [hpl]
      by_cases c : x = u
      · subst c
        rw [hadd]
        constructor
        · rintro (k | ⟨-, k1, k2⟩)
          · exact absurd k hup'
          · exact ⟨hun, k1, Or.inl k2⟩
        · rintro ⟨a1, a2, a3⟩
          refine Or.inr ⟨rfl, a2, ?_⟩
          rcases a3 with k | k
          · exact k
          · rintro rfl
            rw [k] at hvs; simp at hvs
      · rw [h.mem]
        simp only [c, false_and, or_false]
        constructor
        · rintro ⟨a1, a2, a3⟩
          exact ⟨a1, fun w hw => by rw [hA1 x w c]; exact a2 w hw, a3⟩
        · rintro ⟨a1, a2, a3⟩
          exact ⟨a1, fun w hw => by have := a2 w hw; rwa [hA1 x w c] at this, a3⟩
    · intro x y hxy
      rcases (hA3 x y).1 hxy with k | ⟨rfl, rfl⟩
      · exact h.sub x y k
      · exact ⟨hvn, hup⟩
    · intro w hw x hx
      exact (hA3 x w).2 (Or.inl (h.afin w hw x hx))
    · intro j v' temp' us' buf2 hj
      rcases getElem?_set_cases hj with ⟨rfl, e⟩ | ⟨hne, e⟩
      · cases e
        refine ⟨k0, (List.nodup_cons.1 k1).2, fun x hx => k2 x (by simp [hx]), fun x hx => ?_⟩
        rw [hA3, k3 x hx]
        by_cases c : x = u
        · subst c; simp [hus]
        · simp [c]
      · obtain ⟨l0, l1, l2, l3⟩ := h.aproc j v' temp' us' buf2 e
        refine ⟨l0, l1, l2, fun x hx => ?_⟩
        have hvv : v' ≠ v := by
          rintro rfl
          have hmemR := r3 j _ (fun hh => hne hh.symm) e v' (by simp [Thr.held])
          have hone := h.once (v := v')
          rw [List.perm_iff_count.1 r1, List.count_append] at hone
          have h1 : 0 < (Thr.proc v' temp (u :: us) buf).held.count v' := List.count_pos_iff.2 (by simp [Thr.held])
          have h2 : 0 < R.count v' := List.count_pos_iff.2 hmemR
          omega
        rw [hA3, l3 x hx]
        simp [hvv]
    · intro x y hxy
      have hset : ∀ (j : Nat) (temp' : ℚ) (us' buf2 : List Nat), st.ts[j]? = some (.proc y temp' us' buf2) →
          ∃ (j : Nat) (temp' : ℚ) (us' buf2 : List Nat), (st.ts.set i (.proc v temp us buf'))[j]? = some (.proc y temp' us' buf2) := by
        intro j temp' us' buf2 hj
        by_cases c : i = j
        · subst c
          rw [ht] at hj; cases hj
          exact ⟨i, _, us, _, getElem?_set_same ht⟩
        · exact ⟨j, temp', us', buf2, by rw [getElem?_set_other c]; exact hj⟩
      rcases (hA3 x y).1 hxy with k | ⟨rfl, rfl⟩
      · rcases h.anone x y k with k | ⟨j, temp', us', buf2, k⟩
        · exact Or.inl k
        · exact Or.inr (hset j temp' us' buf2 k)
      · exact Or.inr (hset i _ _ _ ht)
    · intro _
      exact Or.inl ⟨.proc v temp us buf', List.mem_of_getElem? (getElem?_set_same ht), by simp⟩
    · intro x hx
      rw [hpl]
      rcases hl' x hx with k | k
      · exact Or.inl (h.lock x k)
      · exact Or.inr k
  have hlen : (u :: placed fin st).length ≤ n := nodup_length_le (List.nodup_cons.2 ⟨hup', h.nodup⟩) (by
    intro x hx
    rcases List.mem_cons.1 hx with rfl | hx
    · exact hun
    · exact h.placed_lt hx)
  simp only [List.length_cons] at hlen
  have hall : (((F u).succs.filter fun w => !A u w).length - 1 = 0 ∧ u ≠ s) ↔ (∀ w ∈ (F u).succs, A' u w = true) ∧ u ≠ s := by
    rw [← hcnew, List.length_eq_zero_iff, List.filter_eq_nil_iff]
    simp
  unfold backPred
  rw [hdu, res_bind_ok, e1, res_bind_ok, h.ct.vget hun, res_bind_ok]
  simp only [if_neg hcu]
  rw [e3, res_bind_ok]
  by_cases c : ((F u).succs.filter fun w => !A u w).length - 1 = 0 ∧ u ≠ s
  · rw [if_pos c, hF.vec.vget hun, res_bind_ok, e5, res_bind_ok]
    have hD' : Vec n (fun z => if z = u ∧ (((F u).succs.filter fun w => !A u w).length - 1 = 0 ∧ u ≠ s) then dep u else if z ∈ placed fin st then dep z else ∑ w ∈ Finset.range n, if A' z w then pu F dep z w else 0) D2 := by
      refine e6.congr fun z hz => ?_
      by_cases d : z = u
      · subst d
        rw [if_pos rfl, if_pos ⟨rfl, c⟩, hsum, hsumc (hall.1 c).1]
      · rw [if_neg d, if_neg d, if_neg (show ¬ (z = u ∧ (((F u).succs.filter fun w => !A u w).length - 1 = 0 ∧ u ≠ s)) from fun hh => d hh.1)]
        simp only [hA1 z _ d]
    have hlk : ∀ x ∈ (if locks = true then u :: st.locked else st.locked), x ∈ st.locked ∨ (x = u ∧ (((F u).succs.filter fun w => !A u w).length - 1 = 0 ∧ u ≠ s)) := by
      intro x hx
      split at hx
      · rcases List.mem_cons.1 hx with k | k
        · exact Or.inr ⟨k, c⟩
        · exact Or.inl k
      · exact Or.inl hx
    by_cases b : buf.length < 100
    · rw [if_pos b]
      have hperm : ∀ a, (placed fin { st with delta := D2, ct := C, locked := (if locks = true then u :: st.locked else st.locked), ts := st.ts.set i (.proc v temp us (buf ++ [u])) }).count a = (u :: placed fin st).count a := by
        intro a
        unfold placed
        simp only [List.count_append, List.perm_iff_count.1 (r2 (.proc v temp us (buf ++ [u]))) a, List.perm_iff_count.1 r1 a, List.count_cons, Thr.held, List.count_nil]
        omega
      have hp := List.perm_iff_count.2 hperm
      refine ⟨_, rfl, ⟨A', main D2 st.q (.proc v temp us (buf ++ [u])) _ _ hall hD' (fun a => (hperm a).le) ?_ hlk ⟨_, rfl⟩⟩, by simp, ?_⟩
      · intro x
        rw [hp.mem_iff, List.mem_cons, or_comm]
        simp only [c, and_true, ne_eq, not_false_eq_true]
      · have hpl := hp.length_eq
        have hs := sum_map_set (wt n) (.proc v temp us (buf ++ [u])) ht
        have f1 : wt n (.proc v temp us (buf ++ [u])) = 2 + us.length + (n + 3) * (buf.length + 1) := by simp [wt]
        have f2 : wt n (.proc v temp (u :: us) buf) = 2 + (us.length + 1) + (n + 3) * buf.length := rfl
        unfold todo
        rw [hpl, List.length_cons]
        have f3 : n - (placed fin st).length = (n - ((placed fin st).length + 1)) + 1 := by omega
        rw [f3, Nat.mul_add (n + 3) (n - ((placed fin st).length + 1))]
        rw [f1, f2, Nat.mul_add] at hs
        show (n + 3) * _ + (n + 3) * st.q.length + ((st.ts.set i _).map (wt n)).sum < _
        omega
    · rw [if_neg b]
      have hperm : ∀ a, (placed fin { st with delta := D2, ct := C, locked := (if locks = true then u :: st.locked else st.locked), q := st.q ++ [u], ts := st.ts.set i (.proc v temp us buf) }).count a = (u :: placed fin st).count a := by
        intro a
        unfold placed
        simp only [List.count_append, List.perm_iff_count.1 (r2 (.proc v temp us buf)) a, List.perm_iff_count.1 r1 a, List.count_cons, Thr.held, List.count_nil]
        omega
      have hp := List.perm_iff_count.2 hperm
      refine ⟨_, rfl, ⟨A', main D2 (st.q ++ [u]) (.proc v temp us buf) _ _ hall hD' (fun a => (hperm a).le) ?_ hlk ⟨_, rfl⟩⟩, by simp, ?_⟩
      · intro x
        rw [hp.mem_iff, List.mem_cons, or_comm]
        simp only [c, and_true, ne_eq, not_false_eq_true]
      · have hpl := hp.length_eq
        have hs := sum_map_set (wt n) (.proc v temp us buf) ht
        have f1 : wt n (.proc v temp us buf) = 2 + us.length + (n + 3) * buf.length := rfl
        have f2 : wt n (.proc v temp (u :: us) buf) = 2 + (us.length + 1) + (n + 3) * buf.length := rfl
        unfold todo
        rw [hpl, List.length_cons]
        have f3 : n - (placed fin st).length = (n - ((placed fin st).length + 1)) + 1 := by omega
        rw [f3, Nat.mul_add (n + 3) (n - ((placed fin st).length + 1))]
        rw [f1, f2] at hs
        show (n + 3) * _ + (n + 3) * (st.q ++ [u]).length + ((st.ts.set i _).map (wt n)).sum < _
        rw [List.length_append, Nat.mul_add (n + 3) st.q.length]
        simp only [List.length_cons, List.length_nil]
        omega
  · rw [if_neg c]
    have hD' : Vec n (fun z => if z = u ∧ (((F u).succs.filter fun w => !A u w).length - 1 = 0 ∧ u ≠ s) then dep u else if z ∈ placed fin st then dep z else ∑ w ∈ Finset.range n, if A' z w then pu F dep z w else 0) D := by
      refine e2.congr fun z hz => ?_
      rw [if_neg (show ¬ (z = u ∧ (((F u).succs.filter fun w => !A u w).length - 1 = 0 ∧ u ≠ s)) from fun hh => c hh.2)]
      by_cases d : z = u
      · subst d
        rw [if_pos rfl, if_neg hup', hsum]
      · rw [if_neg d]
        simp only [hA1 z _ d]
    have hperm : ∀ a, (placed fin { st with delta := D, ct := C, ts := st.ts.set i (.proc v temp us buf) }).count a = (placed fin st).count a := by
      intro a
      unfold placed
      simp only [List.count_append, List.perm_iff_count.1 (r2 (.proc v temp us buf)) a, List.perm_iff_count.1 r1 a, List.count_cons, Thr.held]
    have hp := List.perm_iff_count.2 hperm
    refine ⟨_, rfl, ⟨A', main D st.q (.proc v temp us buf) st.locked _ hall hD' (fun a => by rw [hperm a, List.count_cons]; omega) ?_ (fun x hx => Or.inl hx) ⟨_, rfl⟩⟩, by simp, ?_⟩
    · intro x
      rw [hp.mem_iff]
      simp only [c, and_false, or_false]
    · have hpl := hp.length_eq
      have hs := sum_map_set (wt n) (.proc v temp us buf) ht
      have f1 : wt n (.proc v temp us buf) = 2 + us.length + (n + 3) * buf.length := rfl
      have f2 : wt n (.proc v temp (u :: us) buf) = 2 + (us.length + 1) + (n + 3) * buf.length := rfl
      unfold todo
      rw [hpl]
      show (n + 3) * _ + (n + 3) * st.q.length + ((st.ts.set i _).map (wt n)).sum < _
      omega

/-- One step of the threads. -/
theorem back_step {locks : Bool} (hF : Found n s dep F vs) (h : BI n s dep c0 F A fin st) {o : Res (BSt ⊕ BSt)} (hs : BStep vs s locks st o) :
    (∃ st' A' fin', o = .ok (.inl st') ∧ BI n s dep c0 F A' fin' st' ∧ st'.ts.length = st.ts.length ∧ todo n fin' st' < todo n fin st) ∨ (o = .ok (.inr st) ∧ ∀ t ∈ st.ts, t = .ended) := by
  cases hs with
  | @own i v buf ht =>
    left
    have hvp : v ∈ placed fin st := held_placed ht (by simp [Thr.held])
    have hvn := h.placed_lt hvp
    obtain ⟨R, r1, r2, r3⟩ := flatMap_set ht
    have hone := h.once (v := v)
    rw [List.perm_iff_count.1 r1, List.count_append] at hone
    have h1 : 0 < (Thr.look (v :: buf)).held.count v := List.count_pos_iff.2 (by simp [Thr.held])
    have hunt : ∀ u, A u v = false := h.untouched (nmem_of_count (by omega)) (by
      intro j temp us buf' hj
      by_cases c : j = i
      · subst c; rw [ht] at hj; cases hj
      · have : 0 < R.count v := List.count_pos_iff.2 (r3 j _ c hj v (by simp [Thr.held]))
        omega)
    have hp : (placed fin { st with q := st.q, cent := st.cent, ts := st.ts.set i (.proc v ((1 + dep v) / ((F v).pc : ℚ)) (F v).preds buf) }).Perm (placed fin st) := by
      rw [List.perm_iff_count]
      intro a
      unfold placed
      simp only [List.count_append, List.perm_iff_count.1 (r2 _) a, List.perm_iff_count.1 r1 a, Thr.held]
    rw [h.begin hF hvp buf]
    refine ⟨_, A, fin, rfl, h.move ht h.cent hp (fun w hw => Or.inl hw) ?_ (fun u w _ => ⟨id, fun ⟨_, _, _, hh⟩ => by cases hh⟩) (Or.inl (by simp)), by simp, ?_⟩
    · intro v' temp us buf' e
      cases e
      refine ⟨rfl, hF.pn v hvn, fun u hu => hu, fun u hu => ?_⟩
      rw [hunt u]; simp [hu]
    · have hsum := sum_map_set (wt n) (.proc v ((1 + dep v) / ((F v).pc : ℚ)) (F v).preds buf) ht
      have f1 : wt n (.proc v ((1 + dep v) / ((F v).pc : ℚ)) (F v).preds buf) = 2 + (F v).preds.length + (n + 3) * buf.length := rfl
      have f2 : wt n (.look (v :: buf)) = 1 + (n + 3) * (buf.length + 1) := rfl
      have := preds_len hF hvn
      have hpl := hp.length_eq
      unfold todo
      rw [hpl]
      rw [f1, f2, Nat.mul_add] at hsum
      show (n + 3) * _ + (n + 3) * st.q.length + ((st.ts.set i _).map (wt n)).sum < _
      omega
  | @pop i v q ht hq =>
    left
    have hvp : v ∈ placed fin st := by unfold placed; rw [hq]; simp
    have hvn := h.placed_lt hvp
    obtain ⟨R, r1, r2, r3⟩ := flatMap_set ht
    have hone := h.once (v := v)
    rw [List.perm_iff_count.1 r1, List.count_append, hq] at hone
    have h1 : 0 < (v :: q).count v := List.count_pos_iff.2 (by simp)
    have hunt : ∀ u, A u v = false := h.untouched (nmem_of_count (by omega)) (by
      intro j temp us buf' hj
      by_cases c : j = i
      · subst c; rw [ht] at hj; cases hj
      · have : 0 < R.count v := List.count_pos_iff.2 (r3 j _ c hj v (by simp [Thr.held]))
        omega)
    have hp : (placed fin { st with q := q, cent := st.cent, ts := st.ts.set i (.proc v ((1 + dep v) / ((F v).pc : ℚ)) (F v).preds []) }).Perm (placed fin st) := by
      rw [List.perm_iff_count]
      intro a
      unfold placed
      simp only [List.count_append, List.perm_iff_count.1 (r2 _) a, List.perm_iff_count.1 r1 a, Thr.held, hq, List.count_cons, List.count_nil]
      omega
    rw [h.begin hF hvp []]
    refine ⟨_, A, fin, rfl, h.move ht h.cent hp (fun w hw => Or.inl hw) ?_ (fun u w _ => ⟨id, fun ⟨_, _, _, hh⟩ => by cases hh⟩) (Or.inl (by simp)), by simp, ?_⟩
    · intro v' temp us buf' e
      cases e
      refine ⟨rfl, hF.pn v hvn, fun u hu => hu, fun u hu => ?_⟩
      rw [hunt u]; simp [hu]
    · have hsum := sum_map_set (wt n) (.proc v ((1 + dep v) / ((F v).pc : ℚ)) (F v).preds []) ht
      have f1 : wt n (.proc v ((1 + dep v) / ((F v).pc : ℚ)) (F v).preds []) = 2 + (F v).preds.length + (n + 3) * 0 := rfl
      have f2 : wt n (.look []) = 1 + (n + 3) * 0 := rfl
      have := preds_len hF hvn
      have hpl := hp.length_eq
      unfold todo
      rw [hpl, hq, List.length_cons, Nat.mul_add (n + 3) q.length]
      show (n + 3) * _ + (n + 3) * q.length + ((st.ts.set i _).map (wt n)).sum < _
      omega
  | @leave i ht hq =>
    left
    obtain ⟨R, r1, r2, r3⟩ := flatMap_set ht
    have hp : (placed fin { st with q := st.q, cent := st.cent, ts := st.ts.set i .ended }).Perm (placed fin st) := by
      rw [List.perm_iff_count]
      intro a
      unfold placed
      simp only [List.count_append, List.perm_iff_count.1 (r2 _) a, List.perm_iff_count.1 r1 a, Thr.held]
    refine ⟨_, A, fin, rfl, h.move ht h.cent hp (fun w hw => Or.inl hw) (fun v temp us buf hh => by cases hh) (fun u w _ => ⟨id, fun ⟨_, _, _, hh⟩ => by cases hh⟩) (Or.inr hq), by simp, ?_⟩
    have hsum := sum_map_set (wt n) .ended ht
    have f1 : wt n .ended = 0 := rfl
    have f2 : wt n (.look []) = 1 + (n + 3) * 0 := rfl
    have hpl := hp.length_eq
    unfold todo
    rw [hpl]
    show (n + 3) * _ + (n + 3) * st.q.length + ((st.ts.set i _).map (wt n)).sum < _
    omega
  | @pred i v temp u us buf ht hl =>
    left
    obtain ⟨st', e, ⟨A', h1⟩, h2, h3⟩ := pred_step locks h hF ht
    rw [e]
    exact ⟨st', A', fin, rfl, h1, h2, h3⟩
  | @add i v temp buf ht =>
    left
    have hvp : v ∈ placed fin st := held_placed ht (by simp [Thr.held])
    have hvn := h.placed_lt hvp
    obtain ⟨R, r1, r2, r3⟩ := flatMap_set ht
    obtain ⟨k0, k1, k2, k3⟩ := h.aproc i v temp [] buf ht
    have hone := h.once (v := v)
    rw [List.perm_iff_count.1 r1, List.count_append] at hone
    have h1 : 0 < (Thr.proc v temp [] buf).held.count v := List.count_pos_iff.2 (by simp [Thr.held])
    have hvf : v ∉ fin := nmem_of_count (by omega)
    obtain ⟨e1, e2⟩ := h.cent.vset hvn (c0 v + (if v ∈ fin then dep v else 0) + dep v)
    have hp : (placed (v :: fin) { st with q := st.q, cent := st.cent.set v (c0 v + (if v ∈ fin then dep v else 0) + dep v), ts := st.ts.set i (.look buf) }).Perm (placed fin st) := by
      rw [List.perm_iff_count]
      intro a
      unfold placed
      simp only [List.count_append, List.perm_iff_count.1 (r2 _) a, List.perm_iff_count.1 r1 a, Thr.held, List.count_cons]
      omega
    have ea : addScore st i v buf = .ok { st with cent := st.cent.set v (c0 v + (if v ∈ fin then dep v else 0) + dep v), ts := st.ts.set i (.look buf) } := by
      unfold addScore
      rw [h.complete hvp, res_bind_ok, h.cent.vget hvn, res_bind_ok, e1, res_bind_ok]; rfl
    rw [ea]
    refine ⟨_, A, v :: fin, rfl, h.move ht (e2.congr fun z hz => ?_) hp ?_ (fun v temp us buf hh => by cases hh) (fun u w _ => ⟨fun k => List.mem_cons_of_mem _ k, fun ⟨_, _, _, hh⟩ => by cases hh; exact Or.inl (by simp)⟩) (Or.inl (by simp)), by simp, ?_⟩
    · by_cases c : z = v
      · subst c
        rw [if_pos rfl, if_neg hvf]; simp
      · rw [if_neg c]; simp [c]
    · intro w hw
      rcases List.mem_cons.1 hw with rfl | hw
      · exact Or.inr fun u hu => (k3 u hu).2 (by simp)
      · exact Or.inl hw
    · have hsum := sum_map_set (wt n) (.look buf) ht
      have f1 : wt n (.look buf) = 1 + (n + 3) * buf.length := rfl
      have f2 : wt n (.proc v temp [] buf) = 2 + 0 + (n + 3) * buf.length := rfl
      have hpl := hp.length_eq
      unfold todo
      rw [hpl]
      show (n + 3) * _ + (n + 3) * st.q.length + ((st.ts.set i _).map (wt n)).sum < _
      omega
  | join hend => exact Or.inr ⟨rfl, hend⟩

theorem back_go {locks : Bool} (hF : Found n s dep F vs) (h : BI n s dep c0 F A fin st) : ∃ o, BStep vs s locks st o := by
  by_cases hend : ∀ t ∈ st.ts, t = .ended
  · exact ⟨_, .join hend⟩
  · simp only [not_forall] at hend
    obtain ⟨t, ht, hne⟩ := hend
    obtain ⟨i, hi⟩ := List.getElem?_of_mem ht
    match t, hi, hne with
    | .look [], hi, _ =>
      cases hq : st.q with
      | nil => exact ⟨_, .leave hi hq⟩
      | cons v q => exact ⟨_, .pop hi hq⟩
    | .look (v :: buf), hi, _ => exact ⟨_, .own hi⟩
    | .proc v temp [] buf, hi, _ => exact ⟨_, .add hi⟩
    | .proc v temp (u :: us) buf, hi, _ => exact ⟨_, .pred hi fun _ hl => (locked_free h hF hi).1 (h.lock u hl)⟩
    | .ended, _, hne => exact absurd rfl hne

theorem back_sure {locks : Bool} (hF : Found n s dep F vs) (h : BI n s dep c0 F A fin st) :
    Sure (BStep vs s locks) (fun r => (∃ A' fin', BI n s dep c0 F A' fin' r) ∧ (∀ t ∈ r.ts, t = .ended) ∧ r.ts.length = st.ts.length) st := by
  generalize hm : todo n fin st = k
  have key : ∀ k (st : BSt) A fin, BI n s dep c0 F A fin st → todo n fin st = k → ∀ N, st.ts.length = N →
      Sure (BStep vs s locks) (fun r => (∃ A' fin', BI n s dep c0 F A' fin' r) ∧ (∀ t ∈ r.ts, t = .ended) ∧ r.ts.length = N) st := by
    intro k
    induction k using Nat.strongRecOn with
    | ind k ih =>
      rintro st A fin h rfl N hN
      refine .mk (back_go hF h) ?_ ?_ ?_
      · intro f hf
        rcases back_step hF h hf with ⟨_, _, _, e, -⟩ | ⟨e, -⟩ <;> cases e
      · intro r hr
        rcases back_step hF h hr with ⟨_, _, _, e, -⟩ | ⟨e, h2⟩
        · cases e
        · cases e; exact ⟨⟨A, fin, h⟩, h2, hN⟩
      · intro r hr
        rcases back_step hF h hr with ⟨st', A', fin', e, h1, h2, h3⟩ | ⟨e, -⟩
        · cases e; exact ih _ h3 _ _ _ h1 rfl N (h2.trans hN)
        · cases e
  exact key k st A fin h hm _ rfl

/-- The beginning of the way back. -/
theorem back_init (hF : Found n s dep F vs) {cent : List ℚ} (hc : Vec n c0 cent) {q : List Nat} (hq : q.Perm (BcWork.leaves vs)) (threads : Nat) :
    BI n s dep c0 F (fun _ _ => false) [] (backStart vs q threads cent) := by
  have hheld : (List.replicate threads (Thr.look [])).flatMap Thr.held = [] := by
    rw [List.flatMap_eq_nil_iff]
    intro t ht
    rw [List.eq_of_mem_replicate ht]
    rfl
  have hpl : placed [] (backStart vs q threads cent) = q := by
    unfold placed backStart
    simp [hheld]
  have hlv : ∀ v, v ∈ q ↔ v < n ∧ (F v).succs = [] := by
    intro v
    rw [hq.mem_iff]
    unfold BcWork.leaves
    rw [List.mem_filter, List.mem_range, hF.vec.1]
    constructor
    · rintro ⟨h1, h2⟩
      rw [hF.vec.2 v h1] at h2
      exact ⟨h1, by simpa using h2⟩
    · rintro ⟨h1, h2⟩
      rw [hF.vec.2 v h1]
      exact ⟨h1, by simp [h2]⟩
  have hthr : ∀ (i : Nat) (t : Thr), (List.replicate threads (Thr.look []))[i]? = some t → t = .look [] := fun i t h => List.eq_of_mem_replicate (List.mem_of_getElem? h)
  constructor
  · refine Vec.congr (f := fun _ => (0 : ℚ)) ?_ fun v hv => ?_
    · have : (backStart vs q threads cent).delta = List.replicate n 0 := by rw [← hF.vec.1]; rfl
      rw [this]
      exact Vec.replicate n 0
    · rw [hpl]
      split
      · rename_i c
        rw [← hF.total v hv]
        symm
        apply Finset.sum_eq_zero
        intro w hw
        rw [Finset.mem_range] at hw
        unfold pt
        rw [if_neg]
        intro hh
        have := (hF.sp v hv w).2 ⟨hw, hh⟩
        rw [((hlv v).1 c).2] at this
        simp at this
      · simp
  · refine ⟨by simp [backStart, hF.vec.1], fun v hv => ?_⟩
    simp [backStart, hF.vec.2 v hv]
  · exact hc.congr fun v _ => by simp
  · rw [hpl]; exact hq.nodup_iff.2 (List.Nodup.filter _ List.nodup_range)
  · intro v
    rw [hpl, hlv]
    constructor
    · rintro ⟨h1, h2⟩
      refine ⟨h1, by rw [h2]; simp, ?_⟩
      by_cases e : v = s
      · right; rw [← e]; exact h2
      · left; exact e
    · rintro ⟨h1, h2, -⟩
      refine ⟨h1, ?_⟩
      rw [List.eq_nil_iff_forall_not_mem]
      intro w hw
      exact absurd (h2 w hw) (by simp)
  · intro u w hh; simp at hh
  · intro w hw; simp at hw
  · intro i v temp us buf hh
    have := hthr i _ hh
    cases this
  · intro u w hh; simp at hh
  · intro ht
    have ht : 0 < threads := by simpa [backStart] using ht
    refine Or.inl ⟨.look [], ?_, by simp⟩
    show Thr.look [] ∈ List.replicate threads (Thr.look [])
    rw [List.mem_replicate]
    exact ⟨by omega, rfl⟩
  · intro u hu; simp [backStart] at hu

/-- The pass of one more thread begins when the threads have ended. -/
theorem BI.again (h : BI n s dep c0 F A fin st) (hend : ∀ t ∈ st.ts, t = .ended) : BI n s dep c0 F A fin { st with ts := [.look []] } := by
  have hheld : st.ts.flatMap Thr.held = [] := by
    rw [List.flatMap_eq_nil_iff]
    intro t ht
    rw [hend t ht]; rfl
  have hp : placed fin { st with ts := [.look []] } = placed fin st := by
    unfold placed
    rw [hheld]; rfl
  refine ⟨?_, h.ct, h.cent, ?_, ?_, h.sub, h.afin, ?_, ?_, ?_, ?_⟩
  · rw [hp]; exact h.delta
  · rw [hp]; exact h.nodup
  · rw [hp]; exact h.mem
  · intro i v temp us buf hh
    have := List.mem_of_getElem? hh
    simp at this
  · intro u w huw
    rcases h.anone u w huw with k | ⟨i, temp, us, buf, k⟩
    · exact Or.inl k
    · have := hend _ (List.mem_of_getElem? k)
      cases this
  · intro _; exact Or.inl ⟨.look [], by simp, by simp⟩
  · rw [hp]; exact h.lock

/-- At the end every vertex but the source has its dependency. -/
theorem BI.final (hF : Found n s dep F vs) (h : BI n s dep c0 F A fin st) (hend : ∀ t ∈ st.ts, t = .ended) (hlen : 0 < st.ts.length) (hs : (F s).succs = [] → dep s = 0) :
    Vec n (fun v => c0 v + if v ≠ s then dep v else 0) st.cent := by
  have hheld : st.ts.flatMap Thr.held = [] := by
    rw [List.flatMap_eq_nil_iff]
    intro t ht
    rw [hend t ht]; rfl
  have hq : st.q = [] := by
    rcases h.live hlen with ⟨t, ht, hne⟩ | k
    · exact absurd (hend t ht) hne
    · exact k
  have hp : placed fin st = fin := by unfold placed; rw [hheld, hq]; simp
  have hall : ∀ k v, v < n → v ≠ s → n - (F v).l ≤ k → v ∈ fin := by
    intro k
    induction k with
    | zero =>
      intro v hv hvs hk
      rw [← hp, h.mem]
      refine ⟨hv, fun w hw => ?_, Or.inl hvs⟩
      have := hF.lv v hv w hw
      omega
    | succ k ih =>
      intro v hv hvs hk
      rw [← hp, h.mem]
      refine ⟨hv, fun w hw => ?_, Or.inl hvs⟩
      have h1 := hF.lv v hv w hw
      obtain ⟨h2, h3⟩ := (hF.sp v hv w).1 hw
      exact h.afin w (ih w h2 h1.2.2 (by omega)) v h3
  refine h.cent.congr fun v hv => ?_
  by_cases c : v = s
  · subst c
    rw [if_neg (show ¬ (v ≠ v) from fun hh => hh rfl)]
    by_cases d : v ∈ fin
    · rw [if_pos d]
      rw [← hp] at d
      obtain ⟨-, d1, d2⟩ := (h.mem v).1 d
      rcases d2 with d2 | d2
      · exact absurd rfl d2
      · rw [hs d2]
    · rw [if_neg d]
  · rw [if_pos c, if_pos (hall _ v hv c (Nat.le_refl _))]

end NW.BcNoAbs
