import Verif.Model.DeltaPar
import Verif.Props.Sssp

/-! # C64: parallel delta stepping -/

namespace NW.Sssp
open Spec

variable {α : Type}

/-- The relaxation of the edge `e` out of `z` is done or under way. -/
def ECov (wt : Nat × α → Nat) (s : Nat) (flag : Option Bool) (f : Nat → Nat) (ts : List (PTask α)) (z : Nat) (e : Nat × α) : Prop :=
  (f e.1 ≤ f z + wt e ∧ (flag = none → e.1 ≠ s)) ∨ PTask.start z e ∈ ts ∨
    ∃ next, next ≤ f z + wt e ∧ (PTask.haveNext e.1 next ∈ ts ∨ ∃ prev tried, PTask.havePrev e.1 next prev tried ∈ ts)

/-- The vertex `z` is waiting in a bin or for its task, or all its edges are covered. -/
def Cov (g : Rows α) (wt : Nat × α → Nat) (s delta : Nat) (flag : Option Bool) (top : Nat) (f : Nat → Nat) (bins : List (List Nat))
    (ts : List (PTask α)) (z : Nat) : Prop :=
  (z ∈ bins.getD (f z / delta) [] ∧ top ≤ f z / delta) ∨ (PTask.vertex z ∈ ts ∧ f z / delta = top) ∨ PTask.push z (f z) ∈ ts ∨
    ∀ e ∈ g.getD z [], ECov wt s flag f ts z e

/-- What is known about a task. -/
def TaskOk (g : Rows α) (wt : Nat × α → Nat) (s inf lo : Nat) (f : Nat → Nat) : PTask α → Prop
  | .vertex u => u < g.length ∧ f u < inf
  | .start u e => u < g.length ∧ f u < inf ∧ e ∈ g.getD u [] ∧ lo ≤ f u
  | .haveNext v next => v < g.length ∧ lo ≤ next ∧ ∃ p u y e, Trail g wt s f p u y ∧ e ∈ g.getD u [] ∧ e.1 = v ∧ next = y + wt e
  | .havePrev v next prev tried => v < g.length ∧ lo ≤ next ∧ (∃ p u y e, Trail g wt s f p u y ∧ e ∈ g.getD u [] ∧ e.1 = v ∧ next = y + wt e) ∧
      f v ≤ prev ∧ (v = s → prev = 0 ∧ tried = false)
  | .push v next => v < g.length ∧ lo ≤ next ∧ f v < inf
  | .done => True

theorem TaskOk.lower {g : Rows α} {wt : Nat × α → Nat} {s inf lo : Nat} {f f' : Nat → Nat} {t : PTask α} (h : TaskOk g wt s inf lo f t)
    (hle : ∀ v, f' v ≤ f v) (hlo : ∀ v, lo ≤ f v → lo ≤ f' v) : TaskOk g wt s inf lo f' t := by
  have ht : ∀ {v next : Nat}, (∃ p u y e, Trail g wt s f p u y ∧ e ∈ g.getD u [] ∧ e.1 = v ∧ next = y + wt e) →
      ∃ p u y e, Trail g wt s f' p u y ∧ e ∈ g.getD u [] ∧ e.1 = v ∧ next = y + wt e :=
    fun ⟨p, u, y, e, h1, h2⟩ => ⟨p, u, y, e, h1.mono hle, h2⟩
  cases t with
  | vertex u => exact ⟨h.1, Nat.lt_of_le_of_lt (hle _) h.2⟩
  | start u e => exact ⟨h.1, Nat.lt_of_le_of_lt (hle _) h.2.1, h.2.2.1, hlo _ h.2.2.2⟩
  | haveNext v next => exact ⟨h.1, h.2.1, ht h.2.2⟩
  | havePrev v next prev tried => exact ⟨h.1, h.2.1, ht h.2.2.1, Nat.le_trans (hle _) h.2.2.2.1, h.2.2.2.2⟩
  | push v next => exact ⟨h.1, h.2.1, Nat.lt_of_le_of_lt (hle _) h.2.2⟩
  | done => trivial

theorem Cov.replace {g : Rows α} {wt : Nat × α → Nat} {s delta top : Nat} {flag : Option Bool} {f f' : Nat → Nat} {bins bins' : List (List Nat)}
    {ts ts' : List (PTask α)} {z : Nat} {t : PTask α} (h : Cov g wt s delta flag top f bins ts z) (hle : ∀ v, f' v ≤ f v) (hz : f' z = f z)
    (hb : ∀ i x, x ∈ bins.getD i [] → x ∈ bins'.getD i []) (hT : ∀ t' ∈ ts, t' ≠ t → t' ∈ ts')
    (h1 : t = .vertex z → f z / delta = top → Cov g wt s delta flag top f' bins' ts' z)
    (h2 : t = .push z (f z) → Cov g wt s delta flag top f' bins' ts' z)
    (h3 : ∀ e ∈ g.getD z [], t = .start z e → ECov wt s flag f' ts' z e)
    (h4 : ∀ e ∈ g.getD z [], ∀ next, next ≤ f z + wt e → t = .haveNext e.1 next → ECov wt s flag f' ts' z e)
    (h5 : ∀ e ∈ g.getD z [], ∀ next prev tried, next ≤ f z + wt e → t = .havePrev e.1 next prev tried → ECov wt s flag f' ts' z e) :
    Cov g wt s delta flag top f' bins' ts' z := by
  rcases h with ⟨k1, k2⟩ | ⟨k1, k2⟩ | k1 | k1
  · exact Or.inl ⟨by rw [hz]; exact hb _ _ k1, by rw [hz]; exact k2⟩
  · by_cases c : PTask.vertex z = t
    · exact h1 c.symm k2
    · exact Or.inr (Or.inl ⟨hT _ k1 c, by rw [hz]; exact k2⟩)
  · by_cases c : PTask.push z (f z) = t
    · exact h2 c.symm
    · exact Or.inr (Or.inr (Or.inl (by rw [hz]; exact hT _ k1 c)))
  · refine Or.inr (Or.inr (Or.inr fun e he => ?_))
    rcases k1 e he with ⟨m1, m2⟩ | m1 | ⟨next, m1, m2 | ⟨prev, tried, m2⟩⟩
    · exact Or.inl ⟨by rw [hz]; exact Nat.le_trans (hle _) m1, m2⟩
    · by_cases c : PTask.start z e = t
      · exact h3 e he c.symm
      · exact Or.inr (Or.inl (hT _ m1 c))
    · by_cases c : PTask.haveNext e.1 next = t
      · exact h4 e he next m1 c.symm
      · exact Or.inr (Or.inr ⟨next, by rw [hz]; exact m1, Or.inl (hT _ m2 c)⟩)
    · by_cases c : PTask.havePrev e.1 next prev tried = t
      · exact h5 e he next prev tried m1 c.symm
      · exact Or.inr (Or.inr ⟨next, by rw [hz]; exact m1, Or.inr ⟨prev, tried, hT _ m2 c⟩⟩)

/-- The invariant of a round. -/
structure PInv (g : Rows α) (wt : Nat × α → Nat) (s inf delta : Nat) (flag : Option Bool) (top : Nat) (d : List Nat) (bins : List (List Nat))
    (ts : List (PTask α)) : Prop where
  labels : Labels g wt s inf d
  entries : ∀ b ∈ bins, ∀ x ∈ b, x < g.length ∧ lab inf d x < inf
  tasks : ∀ t ∈ ts, TaskOk g wt s inf (delta * top) (lab inf d) t
  pend : ∀ z, z < g.length → lab inf d z < inf → Cov g wt s delta flag top (lab inf d) bins ts z

def w2 : PTask α → Nat
  | .vertex _ => 1
  | .push _ _ => 2
  | _ => 0

def w3 (f : Nat → Nat) : PTask α → Nat
  | .vertex _ => 1
  | .start _ _ => 4
  | .haveNext _ _ => 3
  | .havePrev v _ prev _ => if prev = f v then 1 else 2
  | .push _ _ => 1
  | .done => 0

/-- The variant: the sum of the labels, the vertices waiting, the steps left to the tasks. -/
def pMeasure (inf : Nat) : PState α → Nat × Nat × Nat
  | .head d bins _ => (d.sum, 2 * (bins.map List.length).sum, 0)
  | .round d bins _ ts => (d.sum, 2 * (bins.map List.length).sum + (ts.map w2).sum, 1 + (ts.map (w3 (lab inf d))).sum)

def pLt : Nat × Nat × Nat → Nat × Nat × Nat → Prop := Prod.Lex (· < ·) (Prod.Lex (· < ·) (· < ·))

theorem pLt_wf : WellFounded pLt := (Prod.lex Nat.lt_wfRel (Prod.lex Nat.lt_wfRel Nat.lt_wfRel)).wf

theorem sum_map_set_eq {τ : Type} (w : τ → Nat) {ts : List τ} {i : Nat} {t : τ} (t' : τ) (h : ts[i]? = some t) :
    ((ts.set i t').map w).sum + w t = (ts.map w).sum + w t' := by
  induction ts generalizing i with
  | nil => simp at h
  | cons x xs ih =>
    cases i with
    | zero => simp at h; subst h; simp; omega
    | succ i =>
      simp at h
      have := ih h
      simp only [List.set_cons_succ, List.map_cons, List.sum_cons]
      omega

theorem pushBin_total {delta : Nat} {j nd : Nat} {bins bins' : List (List Nat)} (h : pushBin delta j nd bins = .ok bins') :
    (bins'.map List.length).sum = (bins.map List.length).sum + 1 := by
  unfold pushBin at h
  split at h
  · cases h
  · revert h
    generalize hb : (if nd / delta ≥ bins.length then bins ++ List.replicate (nd / delta + 1 - bins.length) [] else bins) = bs
    have hsum : (bs.map List.length).sum = (bins.map List.length).sum := by
      subst hb; split
      · simp
      · rfl
    intro h
    simp only at h
    cases hg : vget bs (nd / delta) with
    | error f => rw [hg] at h; cases h
    | ok b =>
      rw [hg, res_bind_ok] at h
      have hlen : nd / delta < bs.length := (List.getElem?_eq_some_iff.1 (vget_eq_ok.1 hg)).1
      rw [vset_of_lt hlen] at h
      cases h
      have := sum_map_set_eq List.length (b ++ [j]) (vget_eq_ok.1 hg)
      rw [List.length_append, List.length_singleton] at this
      omega

theorem mem_set_of_ne {τ : Type} {ts : List τ} {i : Nat} {t t' x : τ} (hi : ts[i]? = some t) (h : t' ∈ ts) (hne : t' ≠ t) : t' ∈ ts.set i x := by
  obtain ⟨j, hj⟩ := List.getElem?_of_mem h
  have : i ≠ j := by
    rintro rfl
    rw [hi] at hj
    exact hne (Option.some.inj hj).symm
  exact List.mem_of_getElem? (by rw [getElem?_set_other this]; exact hj)

theorem mem_set_new {τ : Type} {ts : List τ} {i : Nat} {t x : τ} (hi : ts[i]? = some t) : x ∈ ts.set i x :=
  List.mem_of_getElem? (getElem?_set_same hi)

/-- One step of a task. -/
theorem ptask_ok {g : Rows α} {wt : Nat × α → Nat} {s W dmax delta top : Nat} {flag : Option Bool} (hc : Ctx g wt s W dmax dmax) (hd : 0 < delta)
    (hflag : flag ≠ some true) {d : List Nat} {bins : List (List Nat)} {ts : List (PTask α)} (h : PInv g wt s dmax delta flag top d bins ts)
    {i : Nat} {t : PTask α} (hi : ts[i]? = some t) (hf : t.isDone = false) :
    (∃ d' bins' t' new, pTask g wt dmax delta flag top d bins t = .ok (d', bins', t', new) ∧
      PInv g wt s dmax delta flag top d' bins' (ts.set i t' ++ new) ∧
      pLt (pMeasure dmax (.round d' bins' top (ts.set i t' ++ new))) (pMeasure dmax (.round d bins top ts))) ∨
    (flag = none ∧ pTask g wt dmax delta flag top d bins t = .error .uninitialised) := by
  have hmem : t ∈ ts := List.mem_of_getElem? hi
  have hok := h.tasks t hmem
  -- a step that changes neither labels nor bins
  have frame : ∀ (t' : PTask α) (new : List (PTask α)), TaskOk g wt s dmax (delta * top) (lab dmax d) t' →
      (∀ x ∈ new, TaskOk g wt s dmax (delta * top) (lab dmax d) x) →
      (∀ z, z < g.length → lab dmax d z < dmax → Cov g wt s delta flag top (lab dmax d) bins ts z →
        Cov g wt s delta flag top (lab dmax d) bins (ts.set i t' ++ new) z) →
      PInv g wt s dmax delta flag top d bins (ts.set i t' ++ new) := by
    intro t' new k1 k2 k3
    refine ⟨h.labels, h.entries, ?_, fun z hz hzl => k3 z hz hzl (h.pend z hz hzl)⟩
    intro x hx
    rcases List.mem_append.1 hx with hx | hx
    · rcases List.mem_or_eq_of_mem_set hx with hx | rfl
      · exact h.tasks x hx
      · exact k1
    · exact k2 x hx
  have hT : ∀ (t' : PTask α) (new : List (PTask α)), ∀ x ∈ ts, x ≠ t → x ∈ ts.set i t' ++ new :=
    fun t' new x hx hne => List.mem_append.2 (Or.inl (mem_set_of_ne hi hx hne))
  -- the variant when only the last component drops
  have meas : ∀ (t' : PTask α), w2 t' = w2 t → w3 (lab dmax d) t' < w3 (lab dmax d) t →
      pLt (pMeasure dmax (.round d bins top (ts.set i t' ++ []))) (pMeasure dmax (.round d bins top ts)) := by
    intro t' k1 k2
    have e1 := sum_map_set_eq w2 t' hi
    have e2 := sum_map_set_lt (w3 (lab dmax d)) hi k2
    simp only [pMeasure, List.append_nil]
    rw [show ((ts.set i t').map w2).sum = (ts.map w2).sum by omega]
    exact Prod.Lex.right _ (Prod.Lex.right _ (by omega))
  cases t with
  | vertex u =>
    obtain ⟨hu, hul⟩ := hok
    left
    have m2 := sum_map_set_eq w2 PTask.done hi
    simp only [w2] at m2
    by_cases c : lab dmax d u ≥ delta * top
    · refine ⟨d, bins, .done, (g.getD u []).map (.start u), ?_, frame _ _ trivial ?_ ?_, ?_⟩
      · simp only [pTask]
        rw [lab_get (inf := dmax) h.labels.len hu, res_bind_ok, if_pos c, Bfs.vget_row hu, res_bind_ok]; rfl
      · intro x hx
        obtain ⟨e, he, rfl⟩ := List.mem_map.1 hx
        exact ⟨hu, hul, he, c⟩
      · intro z hz hzl hcov
        refine hcov.replace (fun _ => Nat.le_refl _) rfl (fun _ _ h => h) (hT _ _) ?_ nofun nofun nofun nofun
        intro hzt _
        cases hzt
        exact Or.inr (Or.inr (Or.inr fun e he => Or.inr (Or.inl (List.mem_append.2 (Or.inr (List.mem_map_of_mem he))))))
      · have : (((g.getD u []).map (PTask.start (α := α) u)).map w2).sum = 0 := by
          rw [List.map_map]
          generalize g.getD u [] = l
          induction l with
          | nil => rfl
          | cons x xs ih => simpa [w2] using ih
        simp only [pMeasure, List.map_append, List.sum_append, this]
        refine Prod.Lex.right _ (Prod.Lex.left _ _ ?_)
        omega
    · refine ⟨d, bins, .done, [], ?_, frame _ _ trivial (by simp) ?_, ?_⟩
      · simp only [pTask]
        rw [lab_get (inf := dmax) h.labels.len hu, res_bind_ok, if_neg c]; rfl
      · intro z hz hzl hcov
        refine hcov.replace (fun _ => Nat.le_refl _) rfl (fun _ _ h => h) (hT _ _) ?_ nofun nofun nofun nofun
        intro hzt hdiv
        cases hzt
        have := (Nat.le_div_iff_mul_le hd).1 (Nat.le_of_eq hdiv.symm)
        rw [Nat.mul_comm] at this
        exact absurd this c
      · simp only [pMeasure, List.append_nil]
        exact Prod.Lex.right _ (Prod.Lex.left _ _ (by omega))
  | start u e =>
    obtain ⟨hu, hul, he, hlo⟩ := hok
    left
    have hv : e.1 < g.length := hc.inRange _ _ (List.mem_map_of_mem he)
    refine ⟨d, bins, .haveNext e.1 (lab dmax d u + wt e), [], ?_, frame _ _ ⟨hv, by omega, ?_⟩ (by simp) ?_, meas _ rfl (by simp [w3])⟩
    · simp only [pTask]
      rw [lab_get (inf := dmax) h.labels.len hu, res_bind_ok, Nat.mod_eq_of_lt (Nat.lt_succ_of_le (h.labels.no_wrap hc hu hul he))]; rfl
    · obtain ⟨p, hp⟩ := h.labels.trail u hu hul
      exact ⟨p, u, _, e, hp, he, rfl, rfl⟩
    · intro z hz hzl hcov
      refine hcov.replace (fun _ => Nat.le_refl _) rfl (fun _ _ h => h) (hT _ _) nofun nofun ?_ nofun nofun
      intro e' he' heq
      cases heq
      exact Or.inr (Or.inr ⟨_, Nat.le_refl _, Or.inl (List.mem_append.2 (Or.inl (mem_set_new hi)))⟩)
  | haveNext v next =>
    obtain ⟨hv, hlo, htr⟩ := hok
    left
    refine ⟨d, bins, .havePrev v next (lab dmax d v) false, [], ?_, frame _ _ ⟨hv, hlo, htr, Nat.le_refl _, ?_⟩ (by simp) ?_, meas _ rfl (by simp [w3])⟩
    · simp only [pTask]
      rw [lab_get (inf := dmax) h.labels.len hv, res_bind_ok]; rfl
    · rintro rfl; exact ⟨h.labels.src, rfl⟩
    · intro z hz hzl hcov
      refine hcov.replace (fun _ => Nat.le_refl _) rfl (fun _ _ h => h) (hT _ _) nofun nofun nofun ?_ nofun
      intro e he next' hle heq
      cases heq
      exact Or.inr (Or.inr ⟨_, hle, Or.inr ⟨_, _, List.mem_append.2 (Or.inl (mem_set_new hi))⟩⟩)
  | havePrev v next prev tried =>
    obtain ⟨hv, hlo, htr, hpr, hsrc⟩ := hok
    by_cases c : next < prev
    · left
      have hvs : v ≠ s := by
        intro hvs
        have := (hsrc hvs).1
        omega
      by_cases cc : lab dmax d v = prev
      · obtain ⟨p, u, y, e, tr1, tr2, rfl, rfl⟩ := htr
        obtain ⟨b1, b2, b3⟩ := h.labels.lowerTo hc tr1 tr2 (by omega)
        have hset := fun w => lab_set (inf := dmax) h.labels.len (x := y + wt e) hv w
        have hlow : ∀ x, delta * top ≤ lab dmax d x → delta * top ≤ lab dmax (d.set e.1 (y + wt e)) x := by
          intro x hx
          rw [hset x]; split
          · exact hlo
          · exact hx
        have hlt : y + wt e < dmax := by
          have := h.labels.le e.1 hv
          omega
        refine ⟨d.set e.1 (y + wt e), bins, .push e.1 (y + wt e), [], ?_, ⟨b1, ?_, ?_, ?_⟩, ?_⟩
        · simp only [pTask]
          rw [if_pos c, lab_get (inf := dmax) h.labels.len hv, res_bind_ok, if_pos cc, vset_of_lt (by rw [h.labels.len]; exact hv), res_bind_ok]; rfl
        · intro b hb x hx
          exact ⟨(h.entries b hb x hx).1, Nat.lt_of_le_of_lt (b2 x) (h.entries b hb x hx).2⟩
        · intro x hx
          rw [List.append_nil] at hx
          rcases List.mem_or_eq_of_mem_set hx with hx | rfl
          · exact (h.tasks x hx).lower b2 hlow
          · exact ⟨hv, hlo, by rw [hset, if_pos rfl]; exact hlt⟩
        · intro z hz hzl
          by_cases cz : z = e.1
          · subst cz
            refine Or.inr (Or.inr (Or.inl ?_))
            rw [hset, if_pos rfl]
            exact List.mem_append.2 (Or.inl (mem_set_new hi))
          · have hz' : lab dmax (d.set e.1 (y + wt e)) z = lab dmax d z := by rw [hset, if_neg cz]
            refine (h.pend z hz (by omega)).replace b2 hz' (fun _ _ h => h) (hT _ _) nofun nofun nofun nofun ?_
            intro e' he' next' prev' tried' hle heq
            injection heq with q1 q2
            refine Or.inl ⟨?_, fun _ => by rw [← q1]; exact hvs⟩
            rw [hset, hz', if_pos q1.symm, q2]
            exact hle
        · simp only [pMeasure]
          exact Prod.Lex.left _ _ b3
      · refine ⟨d, bins, .havePrev v next (lab dmax d v) true, [], ?_, frame _ _ ⟨hv, hlo, htr, Nat.le_refl _, fun hs => absurd hs hvs⟩ (by simp) ?_,
          meas _ rfl ?_⟩
        · simp only [pTask]
          rw [if_pos c, lab_get (inf := dmax) h.labels.len hv, res_bind_ok, if_neg cc]; rfl
        · intro z hz hzl hcov
          refine hcov.replace (fun _ => Nat.le_refl _) rfl (fun _ _ h => h) (hT _ _) nofun nofun nofun nofun ?_
          intro e he next' prev' tried' hle heq
          cases heq
          exact Or.inr (Or.inr ⟨_, hle, Or.inr ⟨_, _, List.mem_append.2 (Or.inl (mem_set_new hi))⟩⟩)
        · simp only [w3]
          rw [if_pos trivial, if_neg (fun e => cc e.symm)]; decide
    · have fin : (flag = none → v ≠ s) → PInv g wt s dmax delta flag top d bins (ts.set i .done ++ []) := by
        intro hvs
        refine frame _ _ trivial (by simp) ?_
        intro z hz hzl hcov
        refine hcov.replace (fun _ => Nat.le_refl _) rfl (fun _ _ h => h) (hT _ _) nofun nofun nofun nofun ?_
        intro e he next' prev' tried' hle heq
        cases heq
        exact Or.inl ⟨by omega, hvs⟩
      have hm : w3 (lab dmax d) (PTask.done : PTask α) < w3 (lab dmax d) (PTask.havePrev v next prev tried : PTask α) := by
        simp only [w3]; split <;> decide
      cases tried with
      | true =>
        left
        refine ⟨d, bins, .done, [], ?_, fin (fun _ hs => by cases (hsrc hs).2), meas _ rfl hm⟩
        simp only [pTask]
        rw [if_neg c]; rfl
      | false =>
        match flag, hflag, fin with
        | none, _, _ =>
          right
          refine ⟨rfl, ?_⟩
          simp only [pTask]
          rw [if_neg c]; rfl
        | some true, hfl, _ => exact absurd rfl hfl
        | some false, _, fin =>
          left
          refine ⟨d, bins, .done, [], ?_, fin nofun, meas _ rfl hm⟩
          simp only [pTask]
          rw [if_neg c]; rfl
  | push v next =>
    obtain ⟨hv, hlo, hvl⟩ := hok
    left
    obtain ⟨bins', c1, c2, c3, c4⟩ := pushBin_ok hd v next bins
    refine ⟨d, bins', .done, [], ?_, ⟨h.labels, ?_, ?_, ?_⟩, ?_⟩
    · simp only [pTask]
      rw [c1, res_bind_ok]; rfl
    · intro b hb x hx
      rcases c4 b hb x hx with rfl | ⟨b', hb', hx'⟩
      · exact ⟨hv, hvl⟩
      · exact h.entries b' hb' x hx'
    · intro x hx
      rw [List.append_nil] at hx
      rcases List.mem_or_eq_of_mem_set hx with hx | rfl
      · exact h.tasks x hx
      · trivial
    · intro z hz hzl
      refine (h.pend z hz hzl).replace (fun _ => Nat.le_refl _) rfl c3 (hT _ _) nofun ?_ nofun nofun nofun
      intro heq
      cases heq
      exact Or.inl ⟨c2, (Nat.le_div_iff_mul_le hd).2 (by rw [Nat.mul_comm]; exact hlo)⟩
    · have e0 := pushBin_total c1
      have e1 := sum_map_set_eq w2 PTask.done hi
      have e2 := sum_map_set_lt (w3 (lab dmax d)) hi (t' := .done) (by simp [w3])
      simp only [w2] at e1
      simp only [pMeasure, List.append_nil]
      rw [show 2 * (bins'.map List.length).sum + ((ts.set i .done).map w2).sum = 2 * (bins.map List.length).sum + (ts.map w2).sum by omega]
      exact Prod.Lex.right _ (Prod.Lex.right _ (by omega))
  | done => cases hf

/-- The invariant of the algorithm. -/
def PGood (g : Rows α) (wt : Nat × α → Nat) (s inf delta : Nat) (flag : Option Bool) : PState α → Prop
  | .head d bins top => PInv g wt s inf delta flag top d bins [] ∧ ∀ b, bins[top]? = some b → b ≠ []
  | .round d bins top ts => PInv g wt s inf delta flag top d bins ts

/-- What is known of a result. -/
def PFinal (g : Rows α) (wt : Nat × α → Nat) (s inf : Nat) (flag : Option Bool) (r : List Nat) : Prop :=
  DResult g wt s inf r ∧ (flag = none → ∀ z, z < g.length → lab inf r z < inf → ∀ e ∈ g.getD z [], e.1 ≠ s)

theorem pstep {g : Rows α} {wt : Nat × α → Nat} {s W dmax delta : Nat} {flag : Option Bool} (hc : Ctx g wt s W dmax dmax) (hd : 0 < delta)
    (hflag : flag ≠ some true) {st : PState α} {o : Res (PState α ⊕ List Nat)} (h : PGood g wt s dmax delta flag st)
    (hs : PStep g wt dmax delta flag st o) :
    (∃ st', o = .ok (.inl st') ∧ PGood g wt s dmax delta flag st' ∧ pLt (pMeasure dmax st') (pMeasure dmax st)) ∨
    (∃ r, o = .ok (.inr r) ∧ PFinal g wt s dmax flag r) ∨ (flag = none ∧ o = .error .uninitialised) := by
  cases hs with
  | @head d bins top =>
    obtain ⟨hI, hne⟩ := h
    by_cases c : top < bins.length
    · left
      have hget : bins[top]? = some bins[top] := List.getElem?_eq_getElem c
      have hmem : bins[top] ∈ bins := List.getElem_mem c
      refine ⟨.round d (bins.set top []) top (bins[top].map .vertex), ?_, ⟨hI.labels, ?_, ?_, ?_⟩, ?_⟩
      · unfold pHead
        rw [if_pos c, vget_of_lt c, res_bind_ok, vset_of_lt c, res_bind_ok]; rfl
      · intro b hb x hx
        rcases List.mem_or_eq_of_mem_set hb with h | h
        · exact hI.entries b h x hx
        · subst h; cases hx
      · intro t ht
        obtain ⟨x, hx, rfl⟩ := List.mem_map.1 ht
        exact hI.entries _ hmem x hx
      · intro z hz hzl
        rcases hI.pend z hz hzl with ⟨k1, k2⟩ | ⟨k1, -⟩ | k1 | k1
        · rcases Nat.lt_or_ge top (lab dmax d z / delta) with e | e
          · refine Or.inl ⟨?_, k2⟩
            rw [List.getD_eq_getElem?_getD] at k1 ⊢
            rwa [List.getElem?_set, if_neg (by omega)]
          · have e : lab dmax d z / delta = top := by omega
            rw [e, List.getD_eq_getElem?_getD, hget] at k1
            exact Or.inr (Or.inl ⟨List.mem_map_of_mem k1, e⟩)
        · cases k1
        · cases k1
        · refine Or.inr (Or.inr (Or.inr fun e he => ?_))
          rcases k1 e he with m | m | ⟨_, _, m | ⟨_, _, m⟩⟩
          · exact Or.inl m
          · cases m
          · cases m
          · cases m
      · have e1 := sum_map_set_eq List.length [] hget
        have e2 : ((bins[top].map (PTask.vertex (α := α))).map w2).sum = bins[top].length := by
          rw [List.map_map]
          generalize bins[top] = l
          induction l with
          | nil => rfl
          | cons x xs ih =>
            simp only [List.map_cons, List.sum_cons, List.length_cons, Function.comp, w2] at ih ⊢
            omega
        have e3 : 0 < bins[top].length := List.length_pos_iff.2 (hne _ hget)
        simp only [pMeasure, e2]
        simp only [List.length_nil] at e1
        exact Prod.Lex.right _ (Prod.Lex.left _ _ (by omega))
    · right; left
      refine ⟨d, by unfold pHead; rw [if_neg c]; rfl, ?_⟩
      have hall : ∀ z, z < g.length → lab dmax d z < dmax → ∀ e ∈ g.getD z [], lab dmax d e.1 ≤ lab dmax d z + wt e ∧ (flag = none → e.1 ≠ s) := by
        intro z hz hzl e he
        rcases hI.pend z hz hzl with ⟨k1, k2⟩ | ⟨k1, -⟩ | k1 | k1
        · rw [List.getD_eq_getElem?_getD, List.getElem?_eq_none (by omega)] at k1
          cases k1
        · cases k1
        · cases k1
        · rcases k1 e he with m | m | ⟨_, _, m | ⟨_, _, m⟩⟩
          · exact m
          · cases m
          · cases m
          · cases m
      exact ⟨hI.labels.result hc fun u hu hl e he => (hall u hu hl e he).1, fun hf z hz hzl e he => (hall z hz hzl e he).2 hf⟩
  | @task d bins top ts i t hi hf =>
    rcases ptask_ok hc hd hflag h hi hf with ⟨d', bins', t', new, k1, k2, k3⟩ | ⟨k1, k2⟩
    · left
      exact ⟨.round d' bins' top (ts.set i t' ++ new), by rw [k1]; rfl, k2, k3⟩
    · right; right
      exact ⟨k1, by rw [k2]; rfl⟩
  | @join d bins top ts hf =>
    have h : PInv g wt s dmax delta flag top d bins ts := h
    obtain ⟨m1, m2, m3⟩ := skipEmpty_spec bins top
    left
    refine ⟨_, rfl, ⟨⟨h.labels, h.entries, by simp, ?_⟩, m3⟩, ?_⟩
    · intro z hz hzl
      rcases h.pend z hz hzl with ⟨k1, k2⟩ | ⟨k1, -⟩ | k1 | k1
      · refine Or.inl ⟨k1, ?_⟩
        rcases Nat.lt_or_ge (lab dmax d z / delta) (skipEmpty bins top) with e | e
        · rw [m2 _ k2 e] at k1; cases k1
        · exact e
      · have := hf _ k1; cases this
      · have := hf _ k1; cases this
      · refine Or.inr (Or.inr (Or.inr fun e he => ?_))
        rcases k1 e he with m | m | ⟨_, _, m | ⟨_, _, m⟩⟩
        · exact Or.inl m
        · have := hf _ m; cases this
        · have := hf _ m; cases this
        · have := hf _ m; cases this
    · simp only [pMeasure]
      have e2 : (ts.map w2).sum = 0 := by
        clear * - hf
        induction ts with
        | nil => rfl
        | cons x xs ih =>
          have hx := hf x (by simp)
          have := ih fun t ht => hf t (by simp [ht])
          cases x <;> first | (cases hx; done) | simpa [w2] using this
      rw [e2, Nat.add_zero]
      exact Prod.Lex.right _ (Prod.Lex.right _ (by omega))

theorem pInit_ok {g : Rows α} {wt : Nat × α → Nat} {s W dmax delta : Nat} {flag : Option Bool} (hc : Ctx g wt s W dmax dmax) :
    ∃ st, pInit g dmax s = .ok st ∧ PGood g wt s dmax delta flag st := by
  obtain ⟨h1, h2⟩ := labels_init hc
  refine ⟨.head ((List.replicate g.length dmax).set s 0) [[s]] 0, by unfold pInit; rw [vset_of_lt (by simpa using hc.srcLt), res_bind_ok]; rfl,
    ⟨h1, ?_, by simp, ?_⟩, by simp⟩
  · intro b hb x hx
    simp at hb; subst hb
    simp at hx; subst hx
    exact ⟨hc.srcLt, by rw [h1.src]; exact hc.infPos⟩
  · intro z hz hzl
    have hzs := h2 z hz hzl
    subst hzs
    refine Or.inl ⟨?_, Nat.zero_le _⟩
    rw [h1.src, Nat.zero_div]; simp

theorem pHas_step {g : Rows α} {wt : Nat × α → Nat} {dmax delta : Nat} {flag : Option Bool} (st : PState α) :
    ∃ o, PStep g wt dmax delta flag st o := by
  cases st with
  | head d bins top => exact ⟨_, .head⟩
  | round d bins top ts =>
    by_cases c : ∀ t ∈ ts, t.isDone = true
    · exact ⟨_, .join c⟩
    · have : ∃ t ∈ ts, t.isDone = false := by
        by_contra hno
        refine c fun t ht => ?_
        cases hdn : t.isDone with
        | true => rfl
        | false => exact absurd ⟨t, ht, hdn⟩ hno
      obtain ⟨t, ht, hdn⟩ := this
      obtain ⟨i, hi⟩ := List.getElem?_of_mem ht
      exact ⟨_, .task hi hdn⟩

/-- C64, positive part.  If the uninitialised flag happens to read as `false`, then under every schedule the parallel `delta_stepping` ends without a fault and
returns the distances.  Missing from the full statement: the flag is not initialised (`delta_stepping_parallel_uninitialised`). -/
theorem delta_stepping_parallel_partial (g : Rows α) (wt : Nat × α → Nat) (source W dmax delta : Nat) (hu : Usable g wt source W dmax) (hd : 0 < delta)
    (hmax : 0 < dmax) : ∃ st, pInit g dmax source = .ok st ∧ Sure (PStep g wt dmax delta (some false)) (Distances g wt source dmax) st := by
  have hc : Ctx g wt source W dmax dmax := ⟨hu.inRange, hu.sourceLt, hu.weights, hu.noWrap, hmax⟩
  obtain ⟨st, h1, h2⟩ := pInit_ok (delta := delta) (flag := some false) hc
  refine ⟨st, h1, ?_⟩
  clear h1
  generalize hm : pMeasure dmax st = m
  induction m using pLt_wf.induction generalizing st with
  | _ m ih =>
    subst hm
    refine .mk (pHas_step st) ?_ ?_ ?_
    · intro f hs
      rcases pstep hc hd (by simp) h2 hs with ⟨_, k, -⟩ | ⟨_, k, -⟩ | ⟨k, -⟩ <;> cases k
    · intro r hs
      rcases pstep hc hd (by simp) h2 hs with ⟨_, k, -⟩ | ⟨_, k, hr⟩ | ⟨k, -⟩
      · cases k
      · cases k
        refine ⟨hr.1.1, fun v hv => ⟨fun x hx => ?_, (hr.1.2 v hv).2⟩⟩
        rw [(hr.1.2 v hv).1 x hx, Nat.min_eq_left (Nat.le_trans (least_le hu.inRange hu.sourceLt hu.weights hx) hu.noWrap)]
      · cases k
    · intro st' hs
      rcases pstep hc hd (by simp) h2 hs with ⟨_, k, k2, k3⟩ | ⟨_, k, -⟩ | ⟨k, -⟩
      · cases k
        exact ih _ k3 _ k2 rfl
      · cases k
      · cases k

/-- C64, negative part.  On every graph with an edge from a reachable vertex back to the source, in particular on every undirected graph with an
edge at the source, no schedule makes the parallel `delta_stepping` return: each reads the uninitialised flag (and one does so after finitely many steps). -/
theorem delta_stepping_parallel_uninitialised (g : Rows α) (wt : Nat × α → Nat) (source W dmax delta : Nat) (hu : Usable g wt source W dmax)
    (hd : 0 < delta) (hmax : 0 < dmax) {u : Nat} (hr : Reachable g source u) (he : Edge g u source) :
    ∃ st, pInit g dmax source = .ok st ∧ (∀ o, Runs (PStep g wt dmax delta none) st o → o = .error .uninitialised) ∧
      Runs (PStep g wt dmax delta none) st (.error .uninitialised) := by
  have hc : Ctx g wt source W dmax dmax := ⟨hu.inRange, hu.sourceLt, hu.weights, hu.noWrap, hmax⟩
  obtain ⟨st, h1, h2⟩ := pInit_ok (delta := delta) (flag := none) hc
  have hno : ∀ r, ¬ PFinal g wt source dmax none r := by
    rintro r ⟨hr1, hr2⟩
    obtain ⟨x, hx⟩ := hr.exists_least wt
    have hxlt : x < dmax := by
      obtain ⟨k, hk⟩ := hr.exists_dist
      obtain ⟨y, k1, k2⟩ := Walk.wwalk hu.weights hk.1
      have k3 := hk.lt_length hu.inRange hu.sourceLt
      have k4 := hx.2 y k1
      have k5 := hu.noWrap
      rcases Nat.eq_zero_or_pos W with hW | hW
      · subst hW; simp at k2; omega
      · have := Nat.mul_lt_mul_of_pos_right k3 hW
        omega
    have hul : u < g.length := he.src_lt
    have hlab : lab dmax r u = x := by
      have := (hr1.2 u hul).1 x hx
      rw [lab, List.getD_eq_getElem?_getD, this, Nat.min_eq_left (by omega)]; rfl
    obtain ⟨e, k1, k2⟩ := List.mem_map.1 he
    exact hr2 rfl u hul (by omega) e k1 k2
  refine ⟨st, h1, ?_, ?_⟩
  · intro o hrun
    clear h1
    induction hrun with
    | done hs =>
      rcases pstep hc hd (by simp) h2 hs with ⟨_, k, -⟩ | ⟨_, k, hf⟩ | ⟨-, k⟩
      · cases k
      · exact absurd hf (hno _)
      · cases k
    | fault hs =>
      rcases pstep hc hd (by simp) h2 hs with ⟨_, k, -⟩ | ⟨_, k, -⟩ | ⟨-, k⟩
      · cases k
      · cases k
      · cases k; rfl
    | step hs _ ih =>
      rcases pstep hc hd (by simp) h2 hs with ⟨_, k, k2, -⟩ | ⟨_, k, -⟩ | ⟨-, k⟩
      · cases k; exact ih k2
      · cases k
      · cases k
  · clear h1
    generalize hm : pMeasure dmax st = m
    induction m using pLt_wf.induction generalizing st with
    | _ m ih =>
      subst hm
      obtain ⟨o, hs⟩ := pHas_step (g := g) (wt := wt) (dmax := dmax) (delta := delta) (flag := none) st
      rcases pstep hc hd (by simp) h2 hs with ⟨_, k, k2, k3⟩ | ⟨_, k, hf⟩ | ⟨-, k⟩
      · rw [k] at hs
        exact .step hs (ih _ k3 _ k2 rfl)
      · exact absurd hf (hno _)
      · rw [k] at hs
        exact .fault hs

example : ∃ st, pInit exW 255 0 = .ok st ∧ Sure (PStep exW (·.2) 255 3 (some false)) (Distances exW (·.2) 0 255) st :=
  delta_stepping_parallel_partial exW _ 0 9 255 3 exW_usable (by decide) (by decide)

/-- The example graph has the edge 2 → 0. -/
example : ∃ st, pInit exW 255 0 = .ok st ∧ (∀ o, Runs (PStep exW (·.2) 255 3 none) st o → o = .error .uninitialised) ∧
    Runs (PStep exW (·.2) 255 3 none) st (.error .uninitialised) :=
  delta_stepping_parallel_uninitialised exW _ 0 9 255 3 exW_usable (by decide) (by decide) (u := 2)
    ⟨1, .snoc .nil (by decide)⟩ (by decide)

end NW.Sssp
