import Verif.Lemmas.BcAsyncRun
import Verif.Lemmas.BcWorkBack

/-! # Lemmas: the threads of the way back -/

namespace NW.BcAsync
open Spec Fifo
open NW.Brandes (Vec)
open NW.BcWork (Node Back backPred)

/-- What `w` adds to `v`. -/
def pt (F : Nat → Node) (dep : Nat → ℚ) (v w : Nat) : ℚ := if v ∈ (F w).preds then ((F v).pc : ℚ) / ((F w).pc : ℚ) * (1 + dep w) else 0

/-- What the search has found. -/
structure Found (n s : Nat) (dep : Nat → ℚ) (F : Nat → Node) (vs : List Node) : Prop where
  vec : Vec n F vs
  pl : ∀ w < n, ∀ u ∈ (F w).preds, u < n ∧ u ≠ w
  pn : ∀ w < n, (F w).preds.Nodup
  sn : ∀ w < n, (F w).succs.Nodup
  sp : ∀ z < n, ∀ w, w ∈ (F z).succs ↔ w < n ∧ z ∈ (F w).preds
  total : ∀ z < n, ∑ w ∈ Finset.range n, pt F dep z w = dep z
  lv : ∀ u < n, ∀ w ∈ (F u).succs, (F w).l = (F u).l + 1 ∧ (F w).l < n ∧ w ≠ s

/-- The vertex a thread has taken. -/
def BThr.held : BThr → List Nat
  | .fetch => []
  | .test x => x.toList
  | .proc v _ => [v]
  | .ended => []

/-- The vertices that are or have been in the work list. -/
def placed (st : BSt) : List Nat := st.b.q ++ (st.lost ++ (st.fin ++ st.ts.flatMap BThr.held))

theorem flatMap_set {ts : List BThr} {i : Nat} {t : BThr} (h : ts[i]? = some t) :
    ∃ R : List Nat, (ts.flatMap BThr.held).Perm (t.held ++ R) ∧ (∀ t' : BThr, ((ts.set i t').flatMap BThr.held).Perm (t'.held ++ R)) ∧
      ∀ (j : Nat) (t2 : BThr), j ≠ i → ts[j]? = some t2 → ∀ x ∈ t2.held, x ∈ R := by
  induction ts generalizing i with
  | nil => simp at h
  | cons x xs ih =>
    cases i with
    | zero =>
      simp at h; subst h
      refine ⟨xs.flatMap BThr.held, by simp, fun t' => by simp, ?_⟩
      intro j t2 hj h2 y hy
      cases j with
      | zero => exact absurd rfl hj
      | succ j =>
        simp at h2
        exact List.mem_flatMap.2 ⟨t2, List.mem_of_getElem? h2, hy⟩
    | succ i =>
      simp at h
      obtain ⟨R, h1, h2, h3⟩ := ih h
      refine ⟨x.held ++ R, ?_, ?_, ?_⟩
      · rw [List.flatMap_cons, List.perm_iff_count]
        intro a
        have := List.perm_iff_count.1 h1 a
        simp only [List.count_append] at this ⊢
        omega
      · intro t'
        rw [List.set_cons_succ, List.flatMap_cons, List.perm_iff_count]
        intro a
        have := List.perm_iff_count.1 (h2 t') a
        simp only [List.count_append] at this ⊢
        omega
      · intro j t2 hj hj2 y hy
        cases j with
        | zero =>
          simp at hj2; subst hj2
          exact List.mem_append_left _ hy
        | succ j =>
          simp at hj2
          exact List.mem_append_right _ (h3 j t2 (fun hh => hj (by rw [hh])) hj2 y hy)

/-- What holds between the steps. -/
structure BI (n s : Nat) (dep c0 : Nat → ℚ) (ne : Prop) (F : Nat → Node) (A : Nat → Nat → Bool) (st : BSt) : Prop where
  delta : Vec n (fun u => ∑ w ∈ Finset.range n, if A u w then pt F dep u w else 0) st.b.delta
  ct : Vec n (fun u => ((F u).succs.filter fun w => !A u w).length) st.b.ct
  cent : Vec n (fun v => c0 v + if v ∈ st.fin then dep v else 0) st.b.cent
  nodup : (placed st).Nodup
  mem : ∀ v, v ∈ placed st ↔ v < n ∧ (∀ w ∈ (F v).succs, A v w = true) ∧ (v ≠ s ∨ (F s).succs = [])
  sub : ∀ u w, A u w = true → w < n ∧ u ∈ (F w).preds
  afin : ∀ w ∈ st.fin, ∀ u ∈ (F w).preds, A u w = true
  aproc : ∀ (i v : Nat) (us : List Nat), st.ts[i]? = some (.proc v us) → us.Nodup ∧ (∀ u ∈ us, u ∈ (F v).preds) ∧ ∀ u ∈ (F v).preds, (A u v = true ↔ u ∉ us)
  anone : ∀ u w, A u w = true → w ∈ st.fin ∨ ∃ (i : Nat) (us : List Nat), st.ts[i]? = some (.proc w us)
  live : 0 < st.ts.length → (∃ t ∈ st.ts, t ≠ BThr.ended) ∨ st.b.q = []
  kept : ne → st.b.q ≠ [] ∨ st.lost ≠ [] ∨ ∃ (i v : Nat), st.ts[i]? = some (BThr.test (some v))

def bwt (n N : Nat) (q : List Nat) : BThr → Nat
  | .fetch => 2
  | .test none => if q.isEmpty then 1 else 3
  | .test (some _) => n + 5
  | .proc _ us => 4 + us.length
  | .ended => 0

def bloc (n : Nat) (st : BSt) : Nat :=
  (n - (placed st).length) * (n + 5 + 2 * st.ts.length) + (n + 4) * st.b.q.length + (st.ts.map (bwt n st.ts.length st.b.q)).sum

theorem bwt_le {n N : Nat} {q q' : List Nat} (t : BThr) : bwt n N q t ≤ bwt n N q' t + 2 := by
  cases t with
  | test x =>
    cases x with
    | none => simp only [bwt]; split <;> split <;> omega
    | some e => simp only [bwt]; omega
  | _ => simp only [bwt]; omega

theorem bwt_mono {n N : Nat} {q q' : List Nat} (h : q' = [] → q = []) (t : BThr) : bwt n N q t ≤ bwt n N q' t := by
  cases t with
  | test x =>
    cases x with
    | none =>
      simp only [bwt]
      split
      · split <;> omega
      · rename_i c
        rw [if_neg]
        rw [List.isEmpty_iff] at c ⊢
        exact fun hh => c (h hh)
    | some e => simp only [bwt]; omega
  | _ => simp only [bwt]; omega

variable {n s inf : Nat} {dep c0 : Nat → ℚ} {ne : Prop} {F : Nat → Node} {vs : List Node} {A : Nat → Nat → Bool} {st : BSt}

/-- Without a change of the work list. -/
theorem bloc_set {i : Nat} {t t' : BThr} (h : st.ts[i]? = some t) (b' : Back) (hq : b'.q = st.b.q) (lost' fin' : List Nat)
    (hp : (placed { b := b', ts := st.ts.set i t', lost := lost', fin := fin' }).length = (placed st).length)
    (hw : bwt n st.ts.length st.b.q t' < bwt n st.ts.length st.b.q t) : bloc n { b := b', ts := st.ts.set i t', lost := lost', fin := fin' } < bloc n st := by
  unfold bloc
  rw [hp]
  simp only [List.length_set, hq]
  have := sum_map_set (bwt n st.ts.length st.b.q) t' h
  omega

/-- A step that neither changes `delta` nor `succs_ct`. -/
theorem BI.move (h : BI n s dep c0 ne F A st) {i : Nat} {t t' : BThr} (ht : st.ts[i]? = some t) {b' : Back} {lost' fin' : List Nat} (hd : b'.delta = st.b.delta) (hc : b'.ct = st.b.ct)
    (hcent : Vec n (fun v => c0 v + if v ∈ fin' then dep v else 0) b'.cent) (hp : (placed { b := b', ts := st.ts.set i t', lost := lost', fin := fin' }).Perm (placed st))
    (hfin : ∀ w ∈ fin', w ∈ st.fin ∨ ∀ u ∈ (F w).preds, A u w = true)
    (hproc : ∀ v us, t' = .proc v us → us.Nodup ∧ (∀ u ∈ us, u ∈ (F v).preds) ∧ ∀ u ∈ (F v).preds, (A u v = true ↔ u ∉ us))
    (hnone : ∀ u w, A u w = true → (w ∈ st.fin → w ∈ fin') ∧ ((∃ us, t = .proc w us) → w ∈ fin' ∨ ∃ us, t' = .proc w us))
    (hlive : t' ≠ .ended ∨ b'.q = []) (hsome : st.b.q ≠ [] ∨ st.lost ≠ [] ∨ (∃ e, t = .test (some e)) → b'.q ≠ [] ∨ lost' ≠ [] ∨ ∃ e, t' = .test (some e)) :
    BI n s dep c0 ne F A { b := b', ts := st.ts.set i t', lost := lost', fin := fin' } := by
  refine ⟨by rw [show ({ b := b', ts := st.ts.set i t', lost := lost', fin := fin' } : BSt).b.delta = st.b.delta from hd]; exact h.delta,
    by rw [show ({ b := b', ts := st.ts.set i t', lost := lost', fin := fin' } : BSt).b.ct = st.b.ct from hc]; exact h.ct, hcent, hp.nodup_iff.2 h.nodup,
    fun v => by rw [hp.mem_iff]; exact h.mem v, h.sub, ?_, ?_, ?_, ?_, ?_⟩
  · intro w hw u hu
    rcases hfin w hw with k | k
    · exact h.afin w k u hu
    · exact k u hu
  · intro j v us hj
    rcases getElem?_set_cases hj with ⟨rfl, e⟩ | ⟨-, e⟩
    · exact hproc v us e.symm
    · exact h.aproc j v us e
  · intro u w huw
    rcases h.anone u w huw with k | ⟨j, us, k⟩
    · exact Or.inl ((hnone u w huw).1 k)
    · by_cases c : i = j
      · subst c
        rw [ht] at k; cases k
        rcases (hnone u w huw).2 ⟨us, rfl⟩ with k | ⟨us', k⟩
        · exact Or.inl k
        · exact Or.inr ⟨i, us', by rw [← k]; exact getElem?_set_same ht⟩
      · exact Or.inr ⟨j, us, by
          show (st.ts.set i t')[j]? = _
          rw [getElem?_set_other c]; exact k⟩
  · intro _
    rcases hlive with k | k
    · exact Or.inl ⟨t', List.mem_of_getElem? (getElem?_set_same ht), k⟩
    · exact Or.inr k
  · intro hne
    have lift : (b'.q ≠ [] ∨ lost' ≠ [] ∨ ∃ e, t' = .test (some e)) → b'.q ≠ [] ∨ lost' ≠ [] ∨ ∃ (j v : Nat), (st.ts.set i t')[j]? = some (BThr.test (some v)) := by
      rintro (k | k | ⟨e, rfl⟩)
      · exact Or.inl k
      · exact Or.inr (Or.inl k)
      · exact Or.inr (Or.inr ⟨i, e, getElem?_set_same ht⟩)
    rcases h.kept hne with k | k | ⟨j, e, k⟩
    · exact lift (hsome (Or.inl k))
    · exact lift (hsome (Or.inr (Or.inl k)))
    · by_cases c : i = j
      · subst c
        rw [ht] at k; cases k
        exact lift (hsome (Or.inr (Or.inr ⟨e, rfl⟩)))
      · exact Or.inr (Or.inr ⟨j, e, by
          show (st.ts.set i t')[j]? = _
          rw [getElem?_set_other c]; exact k⟩)

/-- The dependency of a vertex whose successors have all been treated is complete. -/
theorem BI.complete (h : BI n s dep c0 ne F A st) (hF : Found n s dep F vs) {v : Nat} (hv : v ∈ placed st) : v < n ∧ ∑ w ∈ Finset.range n, (if A v w then pt F dep v w else 0) = dep v := by
  obtain ⟨h1, h2, -⟩ := (h.mem v).1 hv
  refine ⟨h1, ?_⟩
  rw [← hF.total v h1]
  refine Finset.sum_congr rfl fun w hw => ?_
  rw [Finset.mem_range] at hw
  split
  · rfl
  · rename_i c
    unfold pt
    rw [if_neg]
    exact fun hh => c (h2 w ((hF.sp v h1 w).2 ⟨hw, hh⟩))

theorem filter_drop {l : List Nat} (hl : l.Nodup) {p : Nat → Bool} {v : Nat} (hv : v ∈ l) (hp : p v = false) :
    (l.filter fun w => !(p w || decide (w = v))).length + 1 = (l.filter fun w => !p w).length := by
  have h1 : (l.filter fun w => !(p w || decide (w = v))) = (l.filter fun w => !p w).erase v := by
    rw [(hl.filter _).erase_eq_filter, List.filter_filter]
    apply List.filter_congr
    intro w _
    by_cases c : w = v
    · simp [c]
    · simp [c]
  have h2 : v ∈ l.filter fun w => !p w := List.mem_filter.2 ⟨hv, by simp [hp]⟩
  rw [h1, List.length_erase_of_mem h2]
  have := List.length_pos_of_mem h2
  omega

/-- One predecessor. -/
theorem pred_step (h : BI n s dep c0 ne F A st) (hF : Found n s dep F vs) {i v u : Nat} {us : List Nat} (ht : st.ts[i]? = some (.proc v (u :: us))) :
    ∃ b', backPred vs s v st.b u = .ok b' ∧ (∃ A', BI n s dep c0 ne F A' { st with b := b', ts := st.ts.set i (.proc v us) }) ∧
      bloc n { st with b := b', ts := st.ts.set i (.proc v us) } < bloc n st := by
  obtain ⟨R, r1, r2, r3⟩ := flatMap_set ht
  have hvp : v ∈ placed st := by
    unfold placed
    simp only [List.mem_append]
    exact Or.inr (Or.inr (Or.inr (r1.mem_iff.2 (by simp [BThr.held]))))
  obtain ⟨hvn, hdv⟩ := h.complete hF hvp
  obtain ⟨k1, k2, k3⟩ := h.aproc i v (u :: us) ht
  have hup : u ∈ (F v).preds := k2 u (by simp)
  obtain ⟨hun, huv⟩ := hF.pl v hvn u hup
  have hAuv : A u v = false := by
    cases hA : A u v with
    | false => rfl
    | true => exact absurd (by simp) ((k3 u hup).1 hA)
  have hvs : v ∈ (F u).succs := (hF.sp u hun v).2 ⟨hvn, hup⟩
  have hup' : u ∉ placed st := fun hh => by
    have := ((h.mem u).1 hh).2.1 v hvs
    rw [hAuv] at this; cases this
  have hus : u ∉ us := (List.nodup_cons.1 k1).1
  obtain ⟨A', hA'⟩ : ∃ A' : Nat → Nat → Bool, ∀ x y, A' x y = (A x y || (decide (x = u) && decide (y = v))) := ⟨_, fun _ _ => rfl⟩
  have hA1 : ∀ x y, x ≠ u → A' x y = A x y := fun x y hx => by rw [hA']; simp [hx]
  have hA2 : ∀ y, A' u y = (A u y || decide (y = v)) := fun y => by rw [hA']; simp
  have hA3 : ∀ x y, A' x y = true ↔ A x y = true ∨ (x = u ∧ y = v) := fun x y => by rw [hA']; simp
  have hdrop := filter_drop (hF.sn u hun) (p := A u) hvs hAuv
  have hcu : ((F u).succs.filter fun w => !A u w).length ≠ 0 := by omega
  have hcnew : ((F u).succs.filter fun w => !A' u w).length = ((F u).succs.filter fun w => !A u w).length - 1 := by
    have : ((F u).succs.filter fun w => !A' u w) = (F u).succs.filter fun w => !(A u w || decide (w = v)) := by
      apply List.filter_congr
      intro w _
      rw [hA2]
    rw [this]; omega
  obtain ⟨e1, e2⟩ := h.delta.vset hun ((∑ w ∈ Finset.range n, if A u w then pt F dep u w else 0) + ((F u).pc : ℚ) / ((F v).pc : ℚ) * (1 + dep v))
  obtain ⟨e3, e4⟩ := h.ct.vset hun (((F u).succs.filter fun w => !A u w).length - 1)
  generalize hD : st.b.delta.set u ((∑ w ∈ Finset.range n, if A u w then pt F dep u w else 0) + ((F u).pc : ℚ) / ((F v).pc : ℚ) * (1 + dep v)) = D at e1 e2
  generalize hC : st.b.ct.set u (((F u).succs.filter fun w => !A u w).length - 1) = C at e3 e4
  refine ⟨{ st.b with delta := D, ct := C, q := if ((F u).succs.filter fun w => !A u w).length - 1 = 0 ∧ u ≠ s then st.b.q ++ [u] else st.b.q }, ?_, ⟨A', ?_⟩, ?_⟩
  · unfold backPred
    rw [hF.vec.vget hun, res_bind_ok, hF.vec.vget hvn, res_bind_ok, h.delta.vget hvn, res_bind_ok, h.delta.vget hun, res_bind_ok, hdv, e1, res_bind_ok, h.ct.vget hun, res_bind_ok]
    simp only [if_neg hcu]
    rw [e3, res_bind_ok]; rfl
  · have hall : (((F u).succs.filter fun w => !A u w).length - 1 = 0 ∧ u ≠ s) ↔ (∀ w ∈ (F u).succs, A' u w = true) ∧ u ≠ s := by
      rw [← hcnew, List.length_eq_zero_iff, List.filter_eq_nil_iff]
      simp
    have hpl : ∀ x, x ∈ placed { st with b := { st.b with delta := D, ct := C, q := if ((F u).succs.filter fun w => !A u w).length - 1 = 0 ∧ u ≠ s then st.b.q ++ [u] else st.b.q }, ts := st.ts.set i (.proc v us) } ↔
        x ∈ placed st ∨ (x = u ∧ (∀ w ∈ (F u).succs, A' u w = true) ∧ u ≠ s) := by
      intro x
      unfold placed
      simp only [List.mem_append, (r2 (.proc v us)).mem_iff, r1.mem_iff, BThr.held]
      by_cases c : ((F u).succs.filter fun w => !A u w).length - 1 = 0 ∧ u ≠ s
      · rw [if_pos c]
        have := hall.1 c
        simp only [List.mem_append, List.mem_singleton]
        constructor
        · rintro ((k | k) | k)
          · exact Or.inl (Or.inl k)
          · exact Or.inr ⟨k, this⟩
          · exact Or.inl (Or.inr k)
        · rintro ((k | k) | ⟨k, -⟩)
          · exact Or.inl (Or.inl k)
          · exact Or.inr k
          · exact Or.inl (Or.inr k)
      · rw [if_neg c]
        rw [hall] at c
        simp only [c, and_false, or_false]
    refine ⟨?_, ?_, h.cent, ?_, ?_, ?_, ?_, ?_, ?_, ?_, ?_⟩
    · refine e2.congr fun z hz => ?_
      by_cases c : z = u
      · subst c
        rw [if_pos rfl]
        have : ∀ w ∈ Finset.range n, (if A' z w = true then pt F dep z w else 0) = (if A z w = true then pt F dep z w else 0) + if w = v then ((F z).pc : ℚ) / ((F v).pc : ℚ) * (1 + dep v) else 0 := by
          intro w _
          rw [hA2]
          by_cases d : w = v
          · subst d
            simp [hAuv, pt, hup]
          · simp [d]
        rw [Finset.sum_congr rfl this, Finset.sum_add_distrib]
        congr 1
        rw [Finset.sum_ite_eq', if_pos (by simpa using hvn)]
      · rw [if_neg c]
        refine Finset.sum_congr rfl fun w _ => by rw [hA1 z w c]
    · refine e4.congr fun z hz => ?_
      by_cases c : z = u
      · subst c
        rw [if_pos rfl, hcnew]
      · rw [if_neg c]
        congr 1
        exact List.filter_congr fun w _ => by rw [hA1 z w c]
    · have hperm : ∀ a, (placed { st with b := { st.b with delta := D, ct := C, q := if ((F u).succs.filter fun w => !A u w).length - 1 = 0 ∧ u ≠ s then st.b.q ++ [u] else st.b.q }, ts := st.ts.set i (.proc v us) }).count a ≤ (u :: placed st).count a := by
        intro a
        unfold placed
        simp only [List.count_append, List.perm_iff_count.1 (r2 (.proc v us)) a, List.perm_iff_count.1 r1 a, List.count_cons, BThr.held]
        split
        · simp only [List.count_append, List.count_cons, List.count_nil]; omega
        · omega
      have hnd : (u :: placed st).Nodup := List.nodup_cons.2 ⟨hup', h.nodup⟩
      rw [List.nodup_iff_count_le_one]
      intro a
      exact (hperm a).trans (List.nodup_iff_count_le_one.1 hnd a)
    · intro x
      rw [hpl]
      by_cases c : x = u
      · subst c
        constructor
        · rintro (k | ⟨-, k1, k2⟩)
          · exact absurd k hup'
          · exact ⟨hun, k1, Or.inl k2⟩
        · rintro ⟨a1, a2, a3⟩
          refine Or.inr ⟨rfl, a2, ?_⟩
          rcases a3 with k | k
          · exact k
          · rintro rfl
            rw [k] at hvs; simp at hvs
      · rw [h.mem]
        simp only [c, false_and, or_false]
        constructor
        · rintro ⟨a1, a2, a3⟩
          exact ⟨a1, fun w hw => by rw [hA1 x w c]; exact a2 w hw, a3⟩
        · rintro ⟨a1, a2, a3⟩
          exact ⟨a1, fun w hw => by have := a2 w hw; rwa [hA1 x w c] at this, a3⟩
    · intro x y hxy
      rcases (hA3 x y).1 hxy with k | ⟨rfl, rfl⟩
      · exact h.sub x y k
      · exact ⟨hvn, hup⟩
    · intro w hw x hx
      exact (hA3 x w).2 (Or.inl (h.afin w hw x hx))
    · intro j v' us' hj
      rcases getElem?_set_cases hj with ⟨rfl, e⟩ | ⟨hne, e⟩
      · cases e
        refine ⟨(List.nodup_cons.1 k1).2, fun x hx => k2 x (by simp [hx]), fun x hx => ?_⟩
        rw [hA3, k3 x hx]
        by_cases c : x = u
        · subst c; simp [hus]
        · simp [c]
      · obtain ⟨l1, l2, l3⟩ := h.aproc j v' us' e
        refine ⟨l1, l2, fun x hx => ?_⟩
        have hvv : v' ≠ v := by
          rintro rfl
          have hmemR := r3 j _ (fun hh => hne hh.symm) e v' (by simp [BThr.held])
          have hnd := h.nodup
          unfold placed at hnd
          have hnd : ((BThr.proc v' (u :: us)).held ++ R).Nodup := by
            rw [← r1.nodup_iff]
            exact (List.nodup_append.1 (List.nodup_append.1 (List.nodup_append.1 hnd).2.1).2.1).2.1
          simp only [BThr.held, List.singleton_append, List.nodup_cons] at hnd
          exact hnd.1 hmemR
        rw [hA3, l3 x hx]
        simp [hvv]
    · intro x y hxy
      have hset : ∀ (j : Nat) (us' : List Nat), st.ts[j]? = some (.proc y us') → ∃ (j : Nat) (us' : List Nat), (st.ts.set i (.proc v us))[j]? = some (.proc y us') := by
        intro j us' hj
        by_cases c : i = j
        · subst c
          rw [ht] at hj; cases hj
          exact ⟨i, us, getElem?_set_same ht⟩
        · exact ⟨j, us', by rw [getElem?_set_other c]; exact hj⟩
      rcases (hA3 x y).1 hxy with k | ⟨rfl, rfl⟩
      · rcases h.anone x y k with k | ⟨j, us', k⟩
        · exact Or.inl k
        · exact Or.inr (hset j us' k)
      · exact Or.inr (hset i _ ht)
    · intro _
      exact Or.inl ⟨.proc v us, List.mem_of_getElem? (getElem?_set_same ht), by simp⟩
    · intro hne
      rcases h.kept hne with k | k | ⟨j, e, k⟩
      · left
        show (if _ then st.b.q ++ [u] else st.b.q) ≠ []
        split
        · simp
        · exact k
      · exact Or.inr (Or.inl k)
      · refine Or.inr (Or.inr ⟨j, e, ?_⟩)
        show (st.ts.set i (.proc v us))[j]? = _
        rw [getElem?_set_other (by rintro rfl; rw [ht] at k; cases k)]
        exact k
  · have hlen : (u :: placed st).length ≤ n := nodup_length_le (List.nodup_cons.2 ⟨hup', h.nodup⟩) (by
      intro x hx
      rcases List.mem_cons.1 hx with rfl | hx
      · exact hun
      · exact ((h.mem x).1 hx).1)
    have l1 := r1.length_eq
    have l2 := (r2 (.proc v us)).length_eq
    simp only [BThr.held, List.singleton_append, List.length_cons] at l1 l2
    unfold bloc
    simp only [List.length_set]
    split
    · rename_i c
      have hp : (placed { st with b := { st.b with delta := D, ct := C, q := st.b.q ++ [u] }, ts := st.ts.set i (.proc v us) }).length = (placed st).length + 1 := by
        unfold placed
        simp only [List.length_append, List.length_cons, List.length_nil, l1, l2]
        omega
      rw [hp]
      simp only [List.length_cons] at hlen
      have h1 := sum_map_set (bwt n st.ts.length (st.b.q ++ [u])) (.proc v us) ht
      have h2 := sum_map_le (bwt n st.ts.length (st.b.q ++ [u])) (bwt n st.ts.length st.b.q) 2 st.ts fun t _ => bwt_le t
      have f1 : bwt n st.ts.length (st.b.q ++ [u]) (.proc v us) = 4 + us.length := rfl
      have f2 : bwt n st.ts.length (st.b.q ++ [u]) (.proc v (u :: us)) = 4 + (us.length + 1) := rfl
      have f3 : n - (placed st).length = (n - ((placed st).length + 1)) + 1 := by omega
      rw [f3, Nat.add_mul (n - ((placed st).length + 1)) 1, Nat.one_mul, List.length_append, Nat.mul_add (n + 4)]
      simp only [List.length_cons, List.length_nil]
      omega
    · rename_i c
      have hp : (placed { st with b := { st.b with delta := D, ct := C, q := st.b.q }, ts := st.ts.set i (.proc v us) }).length = (placed st).length := by
        unfold placed
        simp only [List.length_append, l1, l2]
      rw [hp]
      have h1 := sum_map_set (bwt n st.ts.length st.b.q) (.proc v us) ht
      have f1 : bwt n st.ts.length st.b.q (.proc v us) = 4 + us.length := rfl
      have f2 : bwt n st.ts.length st.b.q (.proc v (u :: us)) = 4 + (us.length + 1) := rfl
      omega

/-- One step of the threads of the way back. -/
theorem back_step (hinf : n < inf) (hF : Found n s dep F vs) (h : BI n s dep c0 ne F A st) {o : Res (BSt ⊕ BSt)} (hs : BStep inf vs s st o) :
    (∃ st' A', o = .ok (.inl st') ∧ BI n s dep c0 ne F A' st' ∧ st'.ts.length = st.ts.length ∧ bloc n st' < bloc n st) ∨ (o = .ok (.inr st) ∧ ∀ t ∈ st.ts, t = .ended) := by
  cases hs with
  | @take i v q ht hq =>
    left
    obtain ⟨R, r1, r2, r3⟩ := flatMap_set ht
    have hp : (placed { st with b := { st.b with q := q }, ts := st.ts.set i (.test (some v)) }).Perm (placed st) := by
      rw [List.perm_iff_count]
      intro a
      unfold placed
      simp only [List.count_append, List.perm_iff_count.1 (r2 (.test (some v))) a, List.perm_iff_count.1 r1 a, BThr.held, hq, List.count_cons, List.count_nil, Option.toList]
      omega
    refine ⟨_, A, rfl, h.move ht rfl rfl h.cent hp (fun w hw => Or.inl hw) (fun v us hh => by cases hh) (fun u w _ => ⟨id, fun ⟨us, hh⟩ => by cases hh⟩) (Or.inl (by simp)) ?_, by simp, ?_⟩
    · intro _; exact Or.inr (Or.inr ⟨v, rfl⟩)
    · unfold bloc
      rw [hp.length_eq]
      simp only [List.length_set, hq, List.length_cons]
      have h1 := sum_map_set (bwt n st.ts.length q) (.test (some v)) ht
      have h2 := sum_map_le (bwt n st.ts.length q) (bwt n st.ts.length (v :: q)) 0 st.ts fun t _ => by
        have := bwt_mono (n := n) (N := st.ts.length) (q := q) (q' := v :: q) (fun hh => by simp at hh) t
        omega
      have e1 : bwt n st.ts.length q (.test (some v)) = n + 5 := rfl
      have e2 : bwt n st.ts.length q .fetch = 2 := rfl
      rw [Nat.mul_succ]
      omega
  | @none i ht hq =>
    left
    obtain ⟨R, r1, r2, r3⟩ := flatMap_set ht
    have hp : (placed { st with ts := st.ts.set i (.test none) }).Perm (placed st) := by
      rw [List.perm_iff_count]
      intro a
      unfold placed
      simp only [List.count_append, List.perm_iff_count.1 (r2 (.test none)) a, List.perm_iff_count.1 r1 a, BThr.held, Option.toList]
    refine ⟨_, A, rfl, h.move ht rfl rfl h.cent hp (fun w hw => Or.inl hw) (fun v us hh => by cases hh) (fun u w _ => ⟨id, fun ⟨us, hh⟩ => by cases hh⟩) (Or.inl (by simp)) ?_, by simp,
      bloc_set ht _ rfl _ _ hp.length_eq (by simp [bwt, hq])⟩
    rintro (k | k | ⟨e, k⟩)
    · exact Or.inl k
    · exact Or.inr (Or.inl k)
    · cases k
  | @leave i x ht hq =>
    left
    obtain ⟨R, r1, r2, r3⟩ := flatMap_set ht
    have hp : (placed { st with ts := st.ts.set i .ended, lost := st.lost ++ x.toList }).Perm (placed st) := by
      rw [List.perm_iff_count]
      intro a
      unfold placed
      simp only [List.count_append, List.perm_iff_count.1 (r2 .ended) a, List.perm_iff_count.1 r1 a, BThr.held, List.count_nil]
      omega
    refine ⟨_, A, rfl, h.move ht rfl rfl h.cent hp (fun w hw => Or.inl hw) (fun v us hh => by cases hh) (fun u w _ => ⟨id, fun ⟨us, hh⟩ => by cases hh⟩) (Or.inr hq) ?_, by simp,
      bloc_set ht _ rfl _ _ hp.length_eq ?_⟩
    · rintro (k | k | ⟨e, k⟩)
      · exact Or.inl k
      · exact Or.inr (Or.inl (by simp [k]))
      · cases k
        exact Or.inr (Or.inl (by simp))
    · cases x with
      | none => simp [bwt, hq]
      | some e => simp [bwt]
  | @item i v ord ht hq h0 hord =>
    left
    obtain ⟨R, r1, r2, r3⟩ := flatMap_set ht
    have hvp : v ∈ placed st := by
      unfold placed
      simp only [List.mem_append]
      exact Or.inr (Or.inr (Or.inr (r1.mem_iff.2 (by simp [BThr.held]))))
    obtain ⟨hvn, -⟩ := h.complete hF hvp
    have hp : (placed { st with ts := st.ts.set i (.proc v (ord (F v).preds)) }).Perm (placed st) := by
      rw [List.perm_iff_count]
      intro a
      unfold placed
      simp only [List.count_append, List.perm_iff_count.1 (r2 (.proc v (ord (F v).preds))) a, List.perm_iff_count.1 r1 a, BThr.held, Option.toList]
    have hnd := h.nodup
    have hsplit : v ∉ st.fin ∧ v ∉ R := by
      have hp2 : (placed st).Perm (v :: (st.b.q ++ (st.lost ++ (st.fin ++ R)))) := by
        rw [List.perm_iff_count]
        intro a
        unfold placed
        simp only [List.count_append, List.perm_iff_count.1 r1 a, BThr.held, Option.toList, List.count_cons, List.count_nil]
        omega
      rw [hp2.nodup_iff, List.nodup_cons] at hnd
      simp only [List.mem_append, not_or] at hnd
      exact ⟨hnd.1.2.2.1, hnd.1.2.2.2⟩
    have hnA : ∀ u, A u v = false := by
      intro u
      cases hA : A u v with
      | false => rfl
      | true =>
        rcases h.anone u v hA with k | ⟨j, us, k⟩
        · exact absurd k hsplit.1
        · have hji : j ≠ i := by rintro rfl; rw [ht] at k; cases k
          exact absurd (r3 j _ hji k v (by simp [BThr.held])) hsplit.2
    refine ⟨_, A, by rw [hF.vec.vget hvn]; rfl, h.move ht rfl rfl h.cent hp (fun w hw => Or.inl hw) ?_ (fun u w _ => ⟨id, fun ⟨us, hh⟩ => by cases hh⟩) (Or.inl (by simp)) ?_, by simp,
      bloc_set ht _ rfl _ _ hp.length_eq ?_⟩
    · intro v' us hh
      cases hh
      refine ⟨(hord _).nodup_iff.2 (hF.pn v hvn), fun u hu => (hord _).mem_iff.1 hu, fun u hu => ?_⟩
      rw [hnA u, (hord _).mem_iff]
      simp [hu]
    · intro _; exact Or.inl hq
    · have hl : (ord (F v).preds).length ≤ n := by
        rw [(hord _).length_eq]
        exact nodup_length_le (hF.pn v hvn) fun u hu => (hF.pl v hvn u hu).1
      have e1 : bwt n st.ts.length st.b.q (.proc v (ord (F v).preds)) = 4 + (ord (F v).preds).length := rfl
      have e2 : bwt n st.ts.length st.b.q (.test (some v)) = n + 5 := rfl
      omega
  | @dummy i x ht hq hx =>
    left
    obtain ⟨R, r1, r2, r3⟩ := flatMap_set ht
    have hxn : x = none := by
      cases x with
      | none => rfl
      | some v =>
        simp at hx
        have hvp : v ∈ placed st := by
          unfold placed
          simp only [List.mem_append]
          exact Or.inr (Or.inr (Or.inr (r1.mem_iff.2 (by simp [BThr.held]))))
        have := ((h.mem v).1 hvp).1
        omega
    subst hxn
    have hp : (placed { st with ts := st.ts.set i .fetch }).Perm (placed st) := by
      rw [List.perm_iff_count]
      intro a
      unfold placed
      simp only [List.count_append, List.perm_iff_count.1 (r2 .fetch) a, List.perm_iff_count.1 r1 a, BThr.held, Option.toList]
    refine ⟨_, A, rfl, h.move ht rfl rfl h.cent hp (fun w hw => Or.inl hw) (fun v us hh => by cases hh) (fun u w _ => ⟨id, fun ⟨us, hh⟩ => by cases hh⟩) (Or.inl (by simp)) ?_, by simp,
      bloc_set ht _ rfl _ _ hp.length_eq (by simp [bwt, hq])⟩
    intro _; exact Or.inl hq
  | @pred i v u us ht =>
    left
    obtain ⟨b', e1, ⟨A', e2⟩, e3⟩ := pred_step h hF ht
    exact ⟨_, A', by rw [e1]; rfl, e2, by simp, e3⟩
  | @add i v ht =>
    left
    obtain ⟨R, r1, r2, r3⟩ := flatMap_set ht
    have hvp : v ∈ placed st := by
      unfold placed
      simp only [List.mem_append]
      exact Or.inr (Or.inr (Or.inr (r1.mem_iff.2 (by simp [BThr.held]))))
    obtain ⟨hvn, hdv⟩ := h.complete hF hvp
    have hvf : v ∉ st.fin := by
      have hnd := h.nodup
      have hp2 : (placed st).Perm (v :: (st.b.q ++ (st.lost ++ (st.fin ++ R)))) := by
        rw [List.perm_iff_count]
        intro a
        unfold placed
        simp only [List.count_append, List.perm_iff_count.1 r1 a, BThr.held, List.count_cons, List.count_nil]
        omega
      rw [hp2.nodup_iff, List.nodup_cons] at hnd
      simp only [List.mem_append, not_or] at hnd
      exact hnd.1.2.2.1
    obtain ⟨e1, e2⟩ := h.cent.vset hvn ((c0 v + if v ∈ st.fin then dep v else 0) + dep v)
    generalize hC : st.b.cent.set v ((c0 v + if v ∈ st.fin then dep v else 0) + dep v) = C at e1 e2
    have hp : (placed { st with b := { st.b with cent := C }, ts := st.ts.set i .fetch, fin := st.fin ++ [v] }).Perm (placed st) := by
      rw [List.perm_iff_count]
      intro a
      unfold placed
      simp only [List.count_append, List.perm_iff_count.1 (r2 .fetch) a, List.perm_iff_count.1 r1 a, BThr.held, List.count_cons, List.count_nil]
      omega
    obtain ⟨k1, k2, k3⟩ := h.aproc i v [] ht
    refine ⟨{ st with b := { st.b with cent := C }, ts := st.ts.set i .fetch, fin := st.fin ++ [v] }, A, ?_, h.move ht rfl rfl ?_ hp ?_ (fun v us hh => by cases hh) ?_ (Or.inl (by simp)) ?_, by simp,
      bloc_set ht _ rfl _ _ hp.length_eq (by simp [bwt])⟩
    · unfold addScore
      rw [h.delta.vget hvn, res_bind_ok, h.cent.vget hvn, res_bind_ok, hdv, e1]
      rfl
    · refine e2.congr fun z hz => ?_
      by_cases c : z = v
      · subst c
        simp [hvf]
      · simp [c]
    · intro w hw
      rcases List.mem_append.1 hw with k | k
      · exact Or.inl k
      · rw [List.mem_singleton] at k
        subst k
        exact Or.inr fun u hu => (k3 u hu).2 (by simp)
    · intro u w _
      refine ⟨fun k => List.mem_append_left _ k, ?_⟩
      rintro ⟨us, hh⟩
      cases hh
      exact Or.inl (by simp)
    · rintro (k | k | ⟨e, k⟩)
      · exact Or.inl k
      · exact Or.inr (Or.inl k)
      · cases k
  | join hh => exact Or.inr ⟨rfl, hh⟩

/-- Some step is possible. -/
theorem back_go (hinf : n < inf) (hF : Found n s dep F vs) (h : BI n s dep c0 ne F A st) : ∃ o, BStep inf vs s st o := by
  by_cases c : ∀ t ∈ st.ts, t = .ended
  · exact ⟨_, .join c⟩
  · have : ∃ t ∈ st.ts, t ≠ .ended := by
      by_contra hh
      exact c fun t ht => by
        by_contra hne
        exact hh ⟨t, ht, hne⟩
    obtain ⟨t, ht, hne⟩ := this
    obtain ⟨i, hi⟩ := List.getElem?_of_mem ht
    cases t with
    | fetch =>
      cases hq : st.b.q with
      | nil => exact ⟨_, .none hi hq⟩
      | cons e q => exact ⟨_, .take hi hq⟩
    | test x =>
      by_cases hq : st.b.q = []
      · exact ⟨_, .leave hi hq⟩
      · by_cases hx : x.getD inf = inf
        · exact ⟨_, .dummy hi hq hx⟩
        · cases x with
          | none => simp at hx
          | some v => exact ⟨_, .item (ord := id) hi hq hx fun l => List.Perm.refl l⟩
    | proc v us =>
      cases us with
      | nil => exact ⟨_, .add hi⟩
      | cons u us => exact ⟨_, .pred hi⟩
    | ended => exact absurd rfl hne

/-- The threads of the way back, in any order. -/
theorem back_sure (hinf : n < inf) (hF : Found n s dep F vs) (h : BI n s dep c0 ne F A st) :
    Sure (BStep inf vs s) (fun r => (∃ A', BI n s dep c0 ne F A' r) ∧ (∀ t ∈ r.ts, t = .ended) ∧ r.ts.length = st.ts.length) st := by
  refine Sure.of_inv (lt := (· < ·)) Nat.lt_wfRel.wf (fun r => bloc n r) (fun r => (∃ A', BI n s dep c0 ne F A' r) ∧ r.ts.length = st.ts.length) ?_ ?_ st ⟨⟨A, h⟩, rfl⟩
  · rintro r ⟨⟨A', hA⟩, -⟩
    exact back_go hinf hF hA
  · rintro r o ⟨⟨A', hA⟩, hlen⟩ hs
    rcases back_step hinf hF hA hs with ⟨r', A2, e1, h2, e3, e4⟩ | ⟨e1, e2⟩
    · exact Or.inl ⟨r', e1, ⟨⟨A2, h2⟩, by rw [e3, hlen]⟩, e4⟩
    · exact Or.inr ⟨r, e1, ⟨A', hA⟩, e2, hlen⟩

/-- The beginning of the way back. -/
theorem back_init (hF : Found n s dep F vs) {cent : List ℚ} (hc : Vec n c0 cent) (hn : ne → 0 < n) (threads : Nat) :
    BI n s dep c0 ne F (fun _ _ => false) (backStart vs threads cent) := by
  have hheld : (List.replicate threads BThr.fetch).flatMap BThr.held = [] := by
    rw [List.flatMap_eq_nil_iff]
    intro t ht
    rw [List.eq_of_mem_replicate ht]
    rfl
  have hpl : placed (backStart vs threads cent) = BcWork.leaves vs := by
    unfold placed backStart
    simp [hheld]
  have hlv : ∀ v, v ∈ BcWork.leaves vs ↔ v < n ∧ (F v).succs = [] := by
    intro v
    unfold BcWork.leaves
    rw [List.mem_filter, List.mem_range, hF.vec.1]
    constructor
    · rintro ⟨h1, h2⟩
      rw [hF.vec.2 v h1] at h2
      exact ⟨h1, by simpa using h2⟩
    · rintro ⟨h1, h2⟩
      rw [hF.vec.2 v h1]
      exact ⟨h1, by simp [h2]⟩
  have hthr : ∀ (i : Nat) (t : BThr), (List.replicate threads BThr.fetch)[i]? = some t → t = .fetch := fun i t h => List.eq_of_mem_replicate (List.mem_of_getElem? h)
  constructor
  · refine Vec.congr (f := fun _ => (0 : ℚ)) ?_ fun v _ => by simp
    have : (backStart vs threads cent).b.delta = List.replicate n 0 := by rw [← hF.vec.1]; rfl
    rw [this]
    exact Vec.replicate n 0
  · refine ⟨by simp [backStart, hF.vec.1], fun v hv => ?_⟩
    simp [backStart, hF.vec.2 v hv]
  · exact hc.congr fun v _ => by simp [backStart]
  · rw [hpl]; exact List.Nodup.filter _ List.nodup_range
  · intro v
    rw [hpl, hlv]
    constructor
    · rintro ⟨h1, h2⟩
      refine ⟨h1, by rw [h2]; simp, ?_⟩
      by_cases e : v = s
      · right; rw [← e]; exact h2
      · left; exact e
    · rintro ⟨h1, h2, -⟩
      refine ⟨h1, ?_⟩
      rw [List.eq_nil_iff_forall_not_mem]
      intro w hw
      exact absurd (h2 w hw) (by simp)
  · intro u w hh; simp at hh
  · intro w hw; simp [backStart] at hw
  · intro i v us hh
    have := hthr i _ hh
    cases this
  · intro u w hh; simp at hh
  · intro ht
    have ht : 0 < threads := by simpa [backStart] using ht
    refine Or.inl ⟨.fetch, ?_, by simp⟩
    show BThr.fetch ∈ List.replicate threads BThr.fetch
    rw [List.mem_replicate]
    exact ⟨by omega, rfl⟩
  · intro hne
    left
    have hn := hn hne
    show BcWork.leaves vs ≠ []
    intro hnil
    have hall : ∀ k v, v < n → n - (F v).l ≤ k → False := by
      intro k
      induction k with
      | zero =>
        intro v hv hk
        by_cases c : (F v).succs = []
        · have := (hlv v).2 ⟨hv, c⟩
          rw [hnil] at this; simp at this
        · obtain ⟨w, hw⟩ := List.exists_mem_of_ne_nil _ c
          have := hF.lv v hv w hw
          omega
      | succ k ih =>
        intro v hv hk
        by_cases c : (F v).succs = []
        · have := (hlv v).2 ⟨hv, c⟩
          rw [hnil] at this; simp at this
        · obtain ⟨w, hw⟩ := List.exists_mem_of_ne_nil _ c
          have h1 := hF.lv v hv w hw
          exact ih w ((hF.sp v hv w).1 hw).1 (by omega)
    exact hall _ 0 hn (Nat.le_refl _)

/-- `w` comes after `v` on a chain of successors. -/
inductive Chain (F : Nat → Node) : Nat → Nat → Prop
  | refl (v : Nat) : Chain F v v
  | step {v u w : Nat} (h : u ∈ (F v).succs) (t : Chain F u w) : Chain F v w

/-- At the end a vertex has been treated unless a vertex after it has been lost. -/
theorem BI.final (hF : Found n s dep F vs) (h : BI n s dep c0 ne F A st) (hend : ∀ t ∈ st.ts, t = .ended) (hlen : 0 < st.ts.length) :
    st.b.q = [] ∧ (ne → st.lost ≠ []) ∧ (∀ v ∈ st.lost, v < n ∧ v ∉ st.fin) ∧ (∀ v, v < n → (v ≠ s ∨ (F s).succs = []) → (v ∉ st.fin ↔ ∃ w ∈ st.lost, Chain F v w)) ∧
      ((F s).succs ≠ [] → s ∉ st.fin) := by
  have hq : st.b.q = [] := by
    rcases h.live hlen with ⟨t, ht, hne⟩ | k
    · exact absurd (hend t ht) hne
    · exact k
  have hheld : st.ts.flatMap BThr.held = [] := by
    rw [List.flatMap_eq_nil_iff]
    intro t ht
    rw [hend t ht]
    rfl
  have hpl : placed st = st.lost ++ st.fin := by
    unfold placed
    rw [hq, hheld]; simp
  have hnd := h.nodup
  rw [hpl, List.nodup_append] at hnd
  have hA : ∀ u w, A u w = true → w ∈ st.fin := by
    intro u w k
    rcases h.anone u w k with k | ⟨i, us, k⟩
    · exact k
    · have := hend _ (List.mem_of_getElem? k)
      cases this
  have hmem : ∀ v, v ∈ st.lost ∨ v ∈ st.fin ↔ v < n ∧ (∀ w ∈ (F v).succs, A v w = true) ∧ (v ≠ s ∨ (F s).succs = []) := by
    intro v
    have := h.mem v
    rwa [hpl, List.mem_append] at this
  have hlost : ∀ v ∈ st.lost, v ∉ st.fin := fun v hv hf => hnd.2.2 v hv v hf rfl
  refine ⟨hq, ?_, fun v hv => ⟨((hmem v).1 (Or.inl hv)).1, hlost v hv⟩, ?_, ?_⟩
  · intro hne
    rcases h.kept hne with k | k | ⟨i, e, k⟩
    · exact absurd hq k
    · exact k
    · have := hend _ (List.mem_of_getElem? k)
      cases this
  · have hback : ∀ v w, Chain F v w → v ∈ st.fin → w ∈ st.fin := by
      intro v w hc
      induction hc with
      | refl => exact id
      | step hs _ ih =>
        intro hv
        exact ih (hA _ _ (((hmem _).1 (Or.inr hv)).2.1 _ hs))
    have hfor : ∀ k v, v < n → n - (F v).l ≤ k → (v ≠ s ∨ (F s).succs = []) → v ∉ st.fin → ∃ w ∈ st.lost, Chain F v w := by
      intro k
      induction k with
      | zero =>
        intro v hv hk hvs hf
        refine ⟨v, ?_, .refl v⟩
        rcases (hmem v).2 ⟨hv, fun w hw => by have := hF.lv v hv w hw; omega, hvs⟩ with k | k
        · exact k
        · exact absurd k hf
      | succ k ih =>
        intro v hv hk hvs hf
        by_cases c : ∀ w ∈ (F v).succs, A v w = true
        · rcases (hmem v).2 ⟨hv, c, hvs⟩ with k | k
          · exact ⟨v, k, .refl v⟩
          · exact absurd k hf
        · have : ∃ w ∈ (F v).succs, ¬ A v w = true := by
            by_contra hh
            exact c fun w hw => by
              by_contra hn
              exact hh ⟨w, hw, hn⟩
          obtain ⟨w, hw, hn⟩ := this
          have h1 := hF.lv v hv w hw
          have h2 := (hF.sp v hv w).1 hw
          have hwf : w ∉ st.fin := fun hh => hn (h.afin w hh v h2.2)
          obtain ⟨x, hx, hc⟩ := ih w h2.1 (by omega) (Or.inl h1.2.2) hwf
          exact ⟨x, hx, .step hw hc⟩
    intro v hv hvs
    constructor
    · exact hfor _ v hv (Nat.le_refl _) hvs
    · rintro ⟨w, hw, hc⟩ hf
      exact hlost w hw (hback v w hc hf)
  · intro hne hf
    exact (((hmem s).1 (Or.inr hf)).2.2).elim (fun k => k rfl) hne

open NW.BcWork (edge_simple simple_inRange simple_length nbrs_simple eraseDups_nodup)

/-- What the search has to find is enough for the way back. -/
theorem found {α : Type} {M : Nat} {g : Rows α} {s : Nat} {vs : List Node} (hg : InRange g) (hs : s < g.length) (hinf : g.length < inf)
    (hfit : ∀ t < g.length, (shortestPaths (simple g) s t).length < M) (h : Spec.Searched M inf g s vs) :
    Found g.length s (dependency (simple g) s) (nodeAt vs) vs ∧ (∀ u w, w ∈ (nodeAt vs u).succs → ∃ d, IsDist g s u d ∧ IsDist g s w (d + 1) ∧ Edge g u w) ∧
      ∀ u w d, IsDist g s u d → IsDist g s w (d + 1) → Edge g u w → w ∈ (nodeAt vs u).succs := by
  have hg' := simple_inRange hg
  have hs' : s < (simple g).length := by rw [simple_length]; exact hs
  have hget : ∀ v, v < g.length → vs[v]? = some (nodeAt vs v) := by
    intro v hv
    have hv' : v < vs.length := by rw [h.size]; exact hv
    unfold nodeAt
    simp [hv']
  have hlt : ∀ v d, IsDist g s v d → v < g.length ∧ d < g.length := fun v d hd => ⟨hd.1.lt hg hs, hd.lt_length hg hs⟩
  have hout : ∀ v, ¬ v < g.length → (nodeAt vs v).succs = [] := by
    intro v hv
    have hv' : ¬ v < vs.length := by rw [h.size]; exact hv
    unfold nodeAt
    simp [hv']
  have hP : ∀ w, w < g.length → ∀ u, u ∈ (nodeAt vs w).preds ↔ ∃ d, IsDist g s u d ∧ IsDist g s w (d + 1) ∧ Edge g u w := fun w hw => (h.preds w _ (hget w hw)).2
  have hS : ∀ u, u < g.length → ∀ w, w ∈ (nodeAt vs u).succs ↔ ∃ d, IsDist g s u d ∧ IsDist g s w (d + 1) ∧ Edge g u w := fun u hu => (h.succs u _ (hget u hu)).2
  refine ⟨⟨⟨h.size, hget⟩, ?_, fun w hw => (h.preds w _ (hget w hw)).1, fun w hw => (h.succs w _ (hget w hw)).1, ?_, ?_, ?_⟩, ?_, ?_⟩
  · intro w hw u hu
    obtain ⟨d, h1, h2, -⟩ := (hP w hw u).1 hu
    refine ⟨(hlt u d h1).1, ?_⟩
    rintro rfl
    have := h1.unique h2
    omega
  · intro z hz w
    rw [hS z hz]
    constructor
    · rintro ⟨d, h1, h2, h3⟩
      exact ⟨(hlt w _ h2).1, (hP w (hlt w _ h2).1 z).2 ⟨d, h1, h2, h3⟩⟩
    · rintro ⟨h1, h2⟩
      exact (hP w h1 z).1 h2
  · intro v hv
    obtain ⟨D, hD⟩ : ∃ D : Nat → Option Nat, ∀ t d, D t = some d ↔ IsDist g s t d := by
      refine ⟨fun t => if t < g.length ∧ (nodeAt vs t).l ≠ inf then some (nodeAt vs t).l else none, fun t d => ?_⟩
      constructor
      · intro hh
        dsimp only at hh
        split at hh
        · rename_i c
          cases hh
          by_cases hr : Reachable g s t
          · obtain ⟨d, hd⟩ := hr.exists_dist
            rw [(h.reached t _ d (hget t c.1) hd).1]
            exact hd
          · exact absurd (h.unreached t _ (hget t c.1) hr).1 c.2
        · cases hh
      · intro hd
        have h1 := (h.reached t _ d (hget t (hlt t d hd).1) hd).1
        have h2 := hlt t d hd
        dsimp only
        rw [if_pos ⟨h2.1, by omega⟩, h1]
    have hdist : ∀ t d, D t = some d ↔ IsDist (simple g) s t d := fun t d => by rw [hD, isDist_simple]
    have hpc : ∀ t d, D t = some d → (nodeAt vs t).pc = nw (simple g) d s t := by
      intro t d ht
      have hd := (hD t d).1 ht
      have h1 := (hlt t d hd).1
      rw [(h.reached t _ d (hget t h1) hd).2, Nat.mod_eq_of_lt (hfit t h1), Brandes.nw_eq_length hg' hs' ((hdist t d).1 ht)]
    cases hDv : D v with
    | none =>
      rw [dependency_unreachable hg' hs' hdist hDv]
      apply Finset.sum_eq_zero
      intro w hw
      unfold pt
      rw [if_neg]
      rw [hP w (by simpa using hw)]
      rintro ⟨d, h1, -⟩
      rw [(hD v d).2 h1] at hDv; cases hDv
    | some i =>
      have h1 := acc_eq_dependency hg' hs' hdist hDv
      rw [acc_rec hg' hs' hdist hDv, simple_length] at h1
      rw [← add_left_cancel h1]
      refine Finset.sum_congr rfl fun w hw => ?_
      have hw' : w < g.length := by simpa using hw
      unfold pt
      by_cases c : D w = some (i + 1)
      · rw [if_pos c]
        by_cases e : Edge g v w
        · rw [if_pos ((hP w hw' v).2 ⟨i, (hD v i).1 hDv, (hD w _).1 c, e⟩), hpc v i hDv, hpc w (i + 1) c, acc_eq_dependency hg' hs' hdist c]
          have : mult (simple g) v w = 1 := by
            have h1 := mult_pos.2 (edge_simple.2 e)
            have h2 : mult (simple g) v w ≤ 1 := by
              unfold mult; rw [nbrs_simple]
              exact List.nodup_iff_count_le_one.1 (eraseDups_nodup _) w
            omega
          rw [this]; simp
        · rw [if_neg fun hh => e (by obtain ⟨d, -, -, h3⟩ := (hP w hw' v).1 hh; exact h3)]
          have : mult (simple g) v w = 0 := by
            rcases Nat.eq_zero_or_pos (mult (simple g) v w) with h1 | h1
            · exact h1
            · exact absurd (edge_simple.1 (mult_pos.1 h1)) e
          rw [this]; simp
      · rw [if_neg c, if_neg]
        rw [hP w hw']
        rintro ⟨d, h1, h2, -⟩
        have := (hD v d).2 h1
        rw [hDv] at this; cases this
        exact c ((hD w _).2 h2)
  · intro u hu w hw
    obtain ⟨d, h1, h2, -⟩ := (hS u hu w).1 hw
    have e1 := (h.reached u _ d (hget u hu) h1).1
    have e2 := (h.reached w _ _ (hget w (hlt w _ h2).1) h2).1
    refine ⟨by omega, by have := (hlt w _ h2).2; omega, ?_⟩
    rintro rfl
    have := h2.2 0 .nil
    omega
  · intro u w hw
    by_cases hu : u < g.length
    · exact (hS u hu w).1 hw
    · rw [hout u hu] at hw; simp at hw
  · intro u w d h1 h2 h3
    exact (hS u (hlt u d h1).1 w).2 ⟨d, h1, h2, h3⟩

end NW.BcAsync
