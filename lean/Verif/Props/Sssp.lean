import Verif.Model.Sssp
import Verif.Lemmas.Relax
import Verif.Props.Bfs

/-! # C24-C26: shortest path distances -/

namespace NW.Sssp
open Spec

variable {α : Type}

/-- What the caller must provide: in-range neighbours, a source that is a vertex, and weights of at most `W` such that a path through all vertices still has
a representable weight. -/
structure Usable (g : Rows α) (wt : Nat × α → Nat) (source W dmax : Nat) : Prop where
  inRange : InRange g
  sourceLt : source < g.length
  weights : ∀ u, ∀ e ∈ g.getD u [], wt e ≤ W
  noWrap : g.length * W ≤ dmax

/-! ## dijkstra -/

/-- The invariant of the loop. -/
structure DInv (g : Rows α) (wt : Nat × α → Nat) (s inf : Nat) (d : List Nat) (q : List (Nat × Nat)) : Prop where
  labels : Labels g wt s inf d
  queue : ∀ x ∈ q, x.1 < g.length ∧ lab inf d x.1 < inf
  pend : ∀ z, z < g.length → lab inf d z < inf → (∃ l, (z, l) ∈ q) ∨ Closed g wt (lab inf d) z

/-- The result of `dijkstra`: every distance is correct up to the value used as infinity. -/
def DResult (g : Rows α) (wt : Nat × α → Nat) (s inf : Nat) (r : List Nat) : Prop :=
  r.length = g.length ∧ ∀ v, v < g.length → (∀ x, IsLeast g wt s v x → r[v]? = some (min x inf)) ∧ (¬ Reachable g s v → r[v]? = some inf)

theorem lab_some {inf n : Nat} {d : List Nat} (hd : d.length = n) {v : Nat} (hv : v < n) : d[v]? = some (lab inf d v) :=
  vget_eq_ok.1 (lab_get hd hv)

theorem Labels.result {g : Rows α} {wt : Nat × α → Nat} {s W inf dmax : Nat} (hc : Ctx g wt s W inf dmax) {d : List Nat}
    (h : Labels g wt s inf d) (hcl : ∀ u, u < g.length → lab inf d u < inf → Closed g wt (lab inf d) u) : DResult g wt s inf d := by
  obtain ⟨h1, h2⟩ := h.least hc hcl
  refine ⟨h.len, fun v hv => ⟨fun x hx => ?_, fun hn => ?_⟩⟩
  · rw [lab_some h.len hv (inf := inf), h1 v x hx]
  · rw [lab_some h.len hv (inf := inf), h2 v hv hn]

theorem dijkstra_sure {g : Rows α} {wt : Nat × α → Nat} {s W inf dmax : Nat} (hc : Ctx g wt s W inf dmax) (p : Nat × Nat) :
    ∀ (d : List Nat) (q : List (Nat × Nat)), p = (d.sum, q.length) → DInv g wt s inf d q →
      Sure (DStep g wt dmax) (DResult g wt s inf) (d, q) := by
  have wf : WellFounded (Prod.Lex (· < ·) (· < ·) : Nat × Nat → Nat × Nat → Prop) := (Prod.lex Nat.lt_wfRel Nat.lt_wfRel).wf
  induction p using wf.induction with
  | _ p ih =>
  intro d q hp hI
  subst hp
  have key : ∀ {q' : List (Nat × Nat)} {u l : Nat}, q.Perm ((u, l) :: q') → ∃ d₁ q₁,
      (do let r ← vget g u
          let st ← r.foldlM (relax wt dmax pushQ u) (d, q')
          return .inl st : Res ((List Nat × List (Nat × Nat)) ⊕ List Nat)) = .ok (.inl (d₁, q₁)) ∧
      DInv g wt s inf d₁ q₁ ∧ Prod.Lex (· < ·) (· < ·) (d₁.sum, q₁.length) (d.sum, q.length) := by
    intro q' u l hperm
    obtain ⟨hu, hlu⟩ := hI.queue (u, l) (hperm.mem_iff.2 (by simp))
    obtain ⟨d₁, q₁, b1, b2, b3, b4, b5, b6, b7⟩ := scan_row hc pushQ
      (fun f q => ∀ x ∈ q, x.1 < g.length ∧ f x.1 < inf) (fun q z _ => ∃ l, (z, l) ∈ q) 0
      (by
        intro f f' q h hle x hx
        exact ⟨(h x hx).1, Nat.lt_of_le_of_lt (hle _) (h x hx).2⟩)
      (by
        intro f q j nd hV hj hf _ hnd
        refine ⟨q ++ [(j, nd)], rfl, ?_, ⟨nd, by simp⟩, ?_⟩
        · intro x hx
          rcases List.mem_append.1 hx with hx | hx
          · exact hV x hx
          · simp at hx; subst hx; exact ⟨hj, by simp only; omega⟩
        · rintro z l ⟨l', hl'⟩
          exact ⟨l', by simp [hl']⟩)
      hI.labels (fun x hx => hI.queue x (hperm.mem_iff.2 (List.mem_cons_of_mem _ hx))) hu hlu (Nat.zero_le _)
      (by
        intro z hz hzl hzu
        rcases hI.pend z hz hzl with ⟨l', hl'⟩ | h
        · rcases List.mem_cons.1 (hperm.mem_iff.1 hl') with h | h
          · cases h; exact absurd rfl hzu
          · exact Or.inl ⟨l', h⟩
        · exact Or.inr h)
    refine ⟨d₁, q₁, ?_, ⟨b2, b3, b6⟩, ?_⟩
    · rw [Bfs.vget_row hu, res_bind_ok, b1, res_bind_ok]; rfl
    · rcases b7 with ⟨rfl, rfl⟩ | h
      · have := hperm.length_eq
        simp at this
        exact Prod.Lex.right _ (by omega)
      · exact Prod.Lex.left _ _ h
  refine .mk ?_ ?_ ?_ ?_
  · cases q with
    | nil => exact ⟨_, .done⟩
    | cons x q' => exact ⟨_, .pop (u := x.1) (d := x.2) (List.Perm.refl _)⟩
  · intro f hs
    generalize ho : (Except.error f : Res ((List Nat × List (Nat × Nat)) ⊕ List Nat)) = o at hs
    cases hs with
    | done => cases ho
    | pop hp =>
      obtain ⟨d₁, q₁, h1, -⟩ := key hp
      rw [h1] at ho; cases ho
  · intro r hs
    generalize ho : (Except.ok (Sum.inr r) : Res ((List Nat × List (Nat × Nat)) ⊕ List Nat)) = o at hs
    cases hs with
    | done =>
      cases ho
      refine hI.labels.result hc fun u hu hl => ?_
      rcases hI.pend u hu hl with ⟨_, h⟩ | h
      · cases h
      · exact h
    | pop hp =>
      obtain ⟨d₁, q₁, h1, -⟩ := key hp
      rw [h1] at ho; cases ho
  · rintro ⟨d', q'⟩ hs
    generalize ho : (Except.ok (Sum.inl (d', q')) : Res ((List Nat × List (Nat × Nat)) ⊕ List Nat)) = o at hs
    cases hs with
    | done => cases ho
    | pop hp =>
      obtain ⟨d₁, q₁, h1, h2, h3⟩ := key hp
      rw [h1] at ho
      cases ho
      exact ih _ h3 _ _ rfl h2

/-- C24.  Whatever entry the queue hands out, `dijkstra` ends without a fault, and its result holds the least weight of a walk from the source
for every vertex where this is below the maximum of the vertex type, and that maximum for the vertices that cannot be reached.
Missing from the full statement: distances at or above the maximum of the vertex type, which are reported as that maximum (`dijkstra_large_distance`). -/
theorem dijkstra_partial (g : Rows α) (wt : Nat × α → Nat) (source W inf dmax : Nat) (hu : Usable g wt source W dmax) (hinf : 0 < inf) :
    ∃ st, dInit g inf source = .ok st ∧
      Sure (DStep g wt dmax) (fun r => DResult g wt source inf r ∧
        ((∀ v x, IsLeast g wt source v x → x ≤ inf) → Distances g wt source inf r)) st := by
  have hc : Ctx g wt source W inf dmax := ⟨hu.inRange, hu.sourceLt, hu.weights, hu.noWrap, hinf⟩
  obtain ⟨h1, h2⟩ := labels_init hc
  refine ⟨((List.replicate g.length inf).set source 0, [(source, 0)]), ?_, ?_⟩
  · unfold dInit
    rw [show check (source < g.length) = .ok () from by simp [check, hu.sourceLt], res_bind_ok, vset_of_lt (by simpa using hu.sourceLt), res_bind_ok]; rfl
  · refine (dijkstra_sure hc _ _ _ rfl ⟨h1, ?_, ?_⟩).mono fun r hr => ⟨hr, fun hx => ⟨hr.1, fun v hv => ⟨fun x hl => ?_, (hr.2 v hv).2⟩⟩⟩
    · intro x hx
      simp at hx; subst hx
      exact ⟨hu.sourceLt, by rw [h1.src]; exact hinf⟩
    · intro z hz hzl
      exact Or.inl ⟨0, by simp [h2 z hz hzl]⟩
    · rw [(hr.2 v hv).1 x hl, Nat.min_eq_left (hx v x hl)]

/-- When a path through all vertices weighs no more than the maximum of the vertex type, `dijkstra` returns the distances. -/
theorem dijkstra_small_partial (g : Rows α) (wt : Nat × α → Nat) (source W inf dmax : Nat) (hu : Usable g wt source W dmax) (hinf : 0 < inf)
    (hsmall : g.length * W ≤ inf) :
    ∃ st, dInit g inf source = .ok st ∧ Sure (DStep g wt dmax) (Distances g wt source inf) st := by
  obtain ⟨st, h1, h2⟩ := dijkstra_partial g wt source W inf dmax hu hinf
  exact ⟨st, h1, h2.mono fun r hr => hr.2 fun v x hx => Nat.le_trans (least_le hu.inRange hu.sourceLt hu.weights hx) hsmall⟩

/-- With an 8 bit vertex type, an edge of weight 300 is reported as if its target were unreachable. -/
theorem dijkstra_large_distance : ∃ (g : Rows Nat) (r : List Nat), Usable g (·.2) 0 300 65535 ∧ IsLeast g (·.2) 0 1 300 ∧
    (∃ st, dInit g 255 0 = .ok st ∧ Runs (DStep g (·.2) 65535) st (.ok r)) ∧ r[1]? = some 255 := by
  refine ⟨[[(1, 300)], []], [0, 255], ⟨by decide, by decide, ?_, by decide⟩, ⟨.snoc .nil (by decide : ((1, 300) : Nat × Nat) ∈ _), ?_⟩, ⟨_, rfl, ?_⟩, rfl⟩
  · intro u e he
    match u with
    | 0 => simp at he; subst he; decide
    | 1 => simp at he
    | u + 2 => simp at he
  · intro y hy
    generalize hv : (1 : Nat) = v at hy
    cases hy with
    | nil => cases hv
    | @snoc u x e hw he =>
      match u with
      | 0 => simp at he; rw [he]; simp
      | 1 => simp at he
      | u + 2 => simp at he
  · refine .step (.pop (u := 0) (d := 0) (q' := []) (List.Perm.refl _)) (.done .done)

/-! ## delta_stepping -/

/-- The invariant inside a round: `rest` is what is left of the frontier. -/
structure SInv (g : Rows α) (wt : Nat × α → Nat) (s inf delta top : Nat) (rest : List Nat) (d : List Nat) (bins : List (List Nat)) : Prop where
  labels : Labels g wt s inf d
  entries : ∀ b ∈ bins, ∀ x ∈ b, x < g.length ∧ lab inf d x < inf
  front : ∀ x ∈ rest, x < g.length ∧ lab inf d x < inf
  pend : ∀ z, z < g.length → lab inf d z < inf →
    ((z ∈ bins.getD (lab inf d z / delta) [] ∧ top ≤ lab inf d z / delta) ∨ (z ∈ rest ∧ lab inf d z / delta = top)) ∨ Closed g wt (lab inf d) z

theorem pushBin_ok {delta : Nat} (hd : 0 < delta) (j nd : Nat) (bins : List (List Nat)) :
    ∃ bins', pushBin delta j nd bins = .ok bins' ∧ j ∈ bins'.getD (nd / delta) [] ∧ (∀ i z, z ∈ bins.getD i [] → z ∈ bins'.getD i []) ∧
      ∀ b ∈ bins', ∀ x ∈ b, x = j ∨ ∃ b ∈ bins, x ∈ b := by
  unfold pushBin
  rw [if_neg (by omega)]
  generalize hb : (if nd / delta ≥ bins.length then bins ++ List.replicate (nd / delta + 1 - bins.length) [] else bins) = bs
  have hlen : nd / delta < bs.length := by
    subst hb; split
    · simp; omega
    · omega
  have hget : ∀ i, bs.getD i [] = bins.getD i [] := by
    intro i
    subst hb; split
    · simp only [List.getD_eq_getElem?_getD, List.getElem?_append]
      split
      · rfl
      · rw [List.getElem?_eq_none (l := bins) (by omega), List.getElem?_replicate]; split <;> rfl
    · rfl
  have hmem : ∀ b ∈ bs, ∀ x ∈ b, ∃ b ∈ bins, x ∈ b := by
    intro b hbm x hx
    subst hb; split at hbm
    · rcases List.mem_append.1 hbm with h | h
      · exact ⟨b, h, hx⟩
      · rw [(List.mem_replicate.1 h).2] at hx; cases hx
    · exact ⟨b, hbm, hx⟩
  simp only
  rw [vget_of_lt hlen, res_bind_ok, vset_of_lt hlen]
  refine ⟨_, rfl, ?_, ?_, ?_⟩
  · rw [List.getD_eq_getElem?_getD, List.getElem?_set, if_pos rfl, if_pos hlen]; simp
  · intro i z hz
    rw [← hget i] at hz
    rw [List.getD_eq_getElem?_getD, List.getElem?_set]
    split
    · next h =>
      subst h
      rw [List.getD_eq_getElem?_getD, List.getElem?_eq_getElem hlen] at hz
      simp at hz ⊢
      exact Or.inl hz
    · rwa [List.getD_eq_getElem?_getD] at hz
  · intro b hbm x hx
    rcases List.mem_or_eq_of_mem_set hbm with h | h
    · exact Or.inr (hmem b h x hx)
    · subst h
      rcases List.mem_append.1 hx with h | h
      · exact Or.inr (hmem _ (List.getElem_mem hlen) x h)
      · simp at h; exact Or.inl h

theorem sVertex_ok {g : Rows α} {wt : Nat × α → Nat} {s W dmax delta top : Nat} (hc : Ctx g wt s W dmax dmax) (hd : 0 < delta)
    {i : Nat} {rest d : List Nat} {bins : List (List Nat)} (h : SInv g wt s dmax delta top (i :: rest) d bins) :
    ∃ d' bins', sVertex g wt dmax delta top (d, bins) i = .ok (d', bins') ∧ SInv g wt s dmax delta top rest d' bins' ∧
      ((d' = d ∧ bins' = bins) ∨ d'.sum < d.sum) := by
  obtain ⟨hi, hil⟩ := h.front i (by simp)
  unfold sVertex
  rw [lab_get (inf := dmax) h.labels.len hi, res_bind_ok]
  by_cases c : lab dmax d i ≥ delta * top
  · rw [if_pos c, Bfs.vget_row hi, res_bind_ok]
    obtain ⟨d₁, q₁, b1, b2, b3, b4, b5, b6, b7⟩ := scan_row hc (pushBin delta)
      (fun f bins => (∀ b ∈ bins, ∀ x ∈ b, x < g.length ∧ f x < dmax))
      (fun bins z l => (z ∈ bins.getD (l / delta) [] ∧ top ≤ l / delta) ∨ (z ∈ rest ∧ l / delta = top)) (delta * top)
      (by
        intro f f' q hq hle b hb x hx
        exact ⟨(hq b hb x hx).1, Nat.lt_of_le_of_lt (hle _) (hq b hb x hx).2⟩)
      (by
        intro f q j nd hV hj hf hlo hnd
        obtain ⟨bins', c1, c2, c3, c4⟩ := pushBin_ok hd j nd q
        refine ⟨bins', c1, ?_, Or.inl ⟨c2, (Nat.le_div_iff_mul_le hd).2 (by rw [Nat.mul_comm]; exact hlo)⟩, ?_⟩
        · intro b hb x hx
          rcases c4 b hb x hx with rfl | ⟨b', hb', hx'⟩
          · exact ⟨hj, by omega⟩
          · exact hV b' hb' x hx'
        · rintro z l (⟨h1, h2⟩ | h1)
          · exact Or.inl ⟨c3 _ _ h1, h2⟩
          · exact Or.inr h1)
      h.labels h.entries hi hil c
      (by
        intro z hz hzl hzi
        rcases h.pend z hz hzl with (h1 | ⟨h1, h2⟩) | h1
        · exact Or.inl (Or.inl h1)
        · rcases List.mem_cons.1 h1 with h1 | h1
          · exact absurd h1 hzi
          · exact Or.inl (Or.inr ⟨h1, h2⟩)
        · exact Or.inr h1)
    exact ⟨d₁, q₁, b1, ⟨b2, b3, fun x hx => ⟨(h.front x (by simp [hx])).1, Nat.lt_of_le_of_lt (b4 x) (h.front x (by simp [hx])).2⟩, b6⟩, b7⟩
  · rw [if_neg c]
    refine ⟨d, bins, rfl, ⟨h.labels, h.entries, fun x hx => h.front x (by simp [hx]), ?_⟩, Or.inl ⟨rfl, rfl⟩⟩
    intro z hz hzl
    rcases h.pend z hz hzl with (h1 | ⟨h1, h2⟩) | h1
    · exact Or.inl (Or.inl h1)
    · rcases List.mem_cons.1 h1 with h1 | h1
      · subst h1
        have := (Nat.le_div_iff_mul_le hd).1 (Nat.le_of_eq h2.symm)
        rw [Nat.mul_comm] at this
        omega
      · exact Or.inl (Or.inr ⟨h1, h2⟩)
    · exact Or.inr h1

theorem sFrontier_ok {g : Rows α} {wt : Nat × α → Nat} {s W dmax delta top : Nat} (hc : Ctx g wt s W dmax dmax) (hd : 0 < delta)
    {rest d : List Nat} {bins : List (List Nat)} (h : SInv g wt s dmax delta top rest d bins) :
    ∃ d' bins', rest.foldlM (sVertex g wt dmax delta top) (d, bins) = .ok (d', bins') ∧ SInv g wt s dmax delta top [] d' bins' ∧
      ((d' = d ∧ bins' = bins) ∨ d'.sum < d.sum) := by
  induction rest generalizing d bins with
  | nil => exact ⟨d, bins, rfl, h, Or.inl ⟨rfl, rfl⟩⟩
  | cons i rest ih =>
    obtain ⟨d₁, b₁, h1, h2, h3⟩ := sVertex_ok hc hd h
    obtain ⟨d₂, b₂, k1, k2, k3⟩ := ih h2
    refine ⟨d₂, b₂, ?_, k2, ?_⟩
    · rw [List.foldlM_cons, h1, res_bind_ok, k1]
    · rcases h3 with ⟨rfl, rfl⟩ | h3
      · exact k3
      · rcases k3 with ⟨rfl, rfl⟩ | k3
        · exact Or.inr h3
        · exact Or.inr (Nat.lt_trans k3 h3)

theorem skipEmpty_spec (bins : List (List Nat)) (top : Nat) : top ≤ skipEmpty bins top ∧
    (∀ j, top ≤ j → j < skipEmpty bins top → bins.getD j [] = []) ∧ ∀ b, bins[skipEmpty bins top]? = some b → b ≠ [] := by
  induction hk : bins.length - top using Nat.strongRecOn generalizing top with
  | ind k ih =>
    rw [skipEmpty]
    split
    · next h =>
      split
      · next he =>
        obtain ⟨h1, h2, h3⟩ := ih (bins.length - (top + 1)) (by omega) (top + 1) rfl
        refine ⟨by omega, ?_, h3⟩
        intro j hj hj'
        rcases Nat.lt_or_ge top j with c | c
        · exact h2 j c hj'
        · obtain rfl : j = top := by omega
          rw [List.getD_eq_getElem?_getD, List.getElem?_eq_getElem h, he]; rfl
      · next he =>
        refine ⟨Nat.le_refl _, fun j hj hj' => by omega, ?_⟩
        intro b hb hbe
        rw [List.getElem?_eq_getElem h] at hb
        cases hb
        exact he hbe
    · next h =>
      refine ⟨Nat.le_refl _, fun j hj hj' => by omega, ?_⟩
      intro b hb
      rw [List.getElem?_eq_none (by omega)] at hb
      cases hb

/-- The invariant when the frontier has been taken out of its bin. -/
theorem SInv.start {g : Rows α} {wt : Nat × α → Nat} {source dmax delta top : Nat} {d : List Nat} {bins : List (List Nat)}
    (hI : SInv g wt source dmax delta top [] d bins) (c : top < bins.length) : SInv g wt source dmax delta top bins[top] d (bins.set top []) := by
  have hget : bins[top]? = some bins[top] := List.getElem?_eq_getElem c
  have hmem : bins[top] ∈ bins := List.getElem_mem c
  refine ⟨hI.labels, ?_, fun x hx => hI.entries _ hmem x hx, ?_⟩
  · intro b hb x hx
    rcases List.mem_or_eq_of_mem_set hb with h | h
    · exact hI.entries b h x hx
    · subst h; cases hx
  · intro z hz hzl
    rcases hI.pend z hz hzl with (⟨k1, k2⟩ | ⟨k1, _⟩) | k1
    · rcases Nat.lt_or_ge top (lab dmax d z / delta) with e | e
      · refine Or.inl (Or.inl ⟨?_, k2⟩)
        rw [List.getD_eq_getElem?_getD] at k1 ⊢
        rwa [List.getElem?_set, if_neg (by omega)]
      · have e : lab dmax d z / delta = top := by omega
        rw [e, List.getD_eq_getElem?_getD, hget] at k1
        exact Or.inl (Or.inr ⟨k1, e⟩)
    · cases k1
    · exact Or.inr k1

/-- The invariant when empty bins have been skipped. -/
theorem SInv.skip {g : Rows α} {wt : Nat × α → Nat} {source dmax delta top : Nat} {d' : List Nat} {bins' : List (List Nat)}
    (k2 : SInv g wt source dmax delta top [] d' bins') : SInv g wt source dmax delta (skipEmpty bins' top) [] d' bins' := by
  obtain ⟨m1, m2, m3⟩ := skipEmpty_spec bins' top
  refine ⟨k2.labels, k2.entries, k2.front, ?_⟩
  intro z hz hzl
  rcases k2.pend z hz hzl with (⟨n1, n2⟩ | ⟨n1, _⟩) | n1
  · refine Or.inl (Or.inl ⟨n1, ?_⟩)
    rcases Nat.lt_or_ge (lab dmax d' z / delta) (skipEmpty bins' top) with e | e
    · rw [m2 _ n2 e] at n1; cases n1
    · exact e
  · cases n1
  · exact Or.inr n1

/-- C25.  `delta_stepping` ends without a fault and returns the distances, for every positive `delta`. -/
theorem delta_stepping_correct (g : Rows α) (wt : Nat × α → Nat) (source W dmax delta : Nat) (hu : Usable g wt source W dmax) (hd : 0 < delta)
    (hmax : 0 < dmax) : ∃ r, Delta g wt dmax delta source (.ok r) ∧ Distances g wt source dmax r := by
  have hc : Ctx g wt source W dmax dmax := ⟨hu.inRange, hu.sourceLt, hu.weights, hu.noWrap, hmax⟩
  obtain ⟨h1, h2⟩ := labels_init hc
  have wf : WellFounded (Prod.Lex (· < ·) (· < ·) : Nat × Nat → Nat × Nat → Prop) := (Prod.lex Nat.lt_wfRel Nat.lt_wfRel).wf
  obtain ⟨⟨d, bins, top⟩, r, ⟨hI, -⟩, hb, hl⟩ := Loop.totalWf (body := sBody g wt dmax delta)
    (fun s => SInv g wt source dmax delta s.2.2 [] s.1 s.2.1 ∧ ∀ b, s.2.1[s.2.2]? = some b → b ≠ [])
    (fun s => (s.1.sum, (s.2.1.map List.length).sum)) wf
    (by
      rintro ⟨d, bins, top⟩ ⟨hI, hne⟩
      simp only at hI hne
      by_cases c : top < bins.length
      · left
        have hget : bins[top]? = some bins[top] := List.getElem?_eq_getElem c
        have hstart := hI.start c
        obtain ⟨d', bins', k1, k2, k3⟩ := sFrontier_ok hc hd hstart
        refine ⟨(d', bins', skipEmpty bins' top), ?_, ⟨k2.skip, (skipEmpty_spec bins' top).2.2⟩, ?_⟩
        · simp only [sBody]
          rw [if_pos c, vget_of_lt c, res_bind_ok, vset_of_lt c, res_bind_ok, k1, res_bind_ok]; rfl
        · simp only
          rcases k3 with ⟨rfl, rfl⟩ | k3
          · refine Prod.Lex.right _ (sum_map_set_lt List.length hget ?_)
            exact List.length_pos_iff.2 (hne _ hget)
          · exact Prod.Lex.left _ _ k3
      · right
        refine ⟨d, ?_⟩
        simp only [sBody]
        rw [if_neg c]; rfl)
    ((List.replicate g.length dmax).set source 0, [[source]], 0)
    (by
      refine ⟨⟨h1, ?_, by simp, ?_⟩, by simp⟩
      · intro b hb x hx
        simp at hb; subst hb
        simp at hx; subst hx
        exact ⟨hu.sourceLt, by rw [h1.src]; exact hmax⟩
      · intro z hz hzl
        have hzs := h2 z hz hzl
        subst hzs
        refine Or.inl (Or.inl ⟨?_, Nat.zero_le _⟩)
        simp only
        rw [h1.src, Nat.zero_div]; simp)
  simp only at hI
  simp only [sBody] at hb
  split at hb
  · next c =>
    revert hb
    cases vget bins top with
    | error f => intro h; cases h
    | ok fr =>
      rw [res_bind_ok]
      cases vset bins top [] with
      | error f => intro h; cases h
      | ok bins' =>
        rw [res_bind_ok]
        cases fr.foldlM (sVertex g wt dmax delta top) (d, bins') with
        | error f => intro h; cases h
        | ok st => intro h; cases h
  · next c =>
    cases hb
    refine ⟨d, ?_, ?_⟩
    · unfold Delta
      rw [vset_of_lt (by simpa using hu.sourceLt)]
      exact hl
    · have hr := hI.labels.result hc fun u hu hl => by
        rcases hI.pend u hu hl with (⟨k1, k2⟩ | ⟨k1, _⟩) | k1
        · rw [List.getD_eq_getElem?_getD, List.getElem?_eq_none (by omega)] at k1
          cases k1
        · cases k1
        · exact k1
      refine ⟨hr.1, fun v hv => ⟨fun x hx => ?_, (hr.2 v hv).2⟩⟩
      rw [(hr.2 v hv).1 x hx]
      rw [Nat.min_eq_left (Nat.le_trans (least_le hu.inRange hu.sourceLt hu.weights hx) hu.noWrap)]

/-- With `delta = 0` the first improvement divides by zero. -/
theorem delta_stepping_zero : Delta (α := Nat) [[(1, 5)], []] (·.2) 255 0 0 (.error .divByZero) := by
  refine Loop.of_runFuel (n := 2) ?_
  decide

/-- The result is unique, so `delta_stepping_correct` describes the only outcome. -/
theorem Delta.det {g : Rows α} {wt : Nat × α → Nat} {source dmax delta : Nat} {o₁ o₂ : Res (List Nat)}
    (h₁ : Delta g wt dmax delta source o₁) (h₂ : Delta g wt dmax delta source o₂) : o₁ = o₂ := by
  unfold Delta at h₁ h₂
  cases hv : vset (List.replicate g.length dmax) source 0 with
  | error f =>
    rw [hv] at h₁ h₂
    exact (show o₁ = _ from h₁).trans (show o₂ = _ from h₂).symm
  | ok d =>
    rw [hv] at h₁ h₂
    exact Loop.det h₁ h₂

/-! ## delta_stepping_m1 -/

/-- What `delta_stepping_m1` returns for every graph, source and weights: 0 for the source and the maximum for every other vertex. -/
theorem m1_result (g : Rows α) (wt : Nat × α → Nat) (dmax source : Nat) (hs : source < g.length) (o : Res (List Nat)) :
    M1 g wt dmax source o ↔ o = .ok ((List.replicate g.length dmax).set source 0) := by
  have hrun : M1 g wt dmax source (.ok ((List.replicate g.length dmax).set source 0)) := by
    unfold M1
    rw [vset_of_lt (by simpa using hs)]
    exact .step (s' := (_, [])) rfl (.done rfl)
  constructor
  · intro h
    unfold M1 at h hrun
    rw [vset_of_lt (by simpa using hs)] at h hrun
    exact Loop.det h hrun
  · rintro rfl; exact hrun

/-- C26, negative.  On every graph where some other vertex can be reached with weight less than the maximum, the result is wrong. -/
theorem m1_wrong (g : Rows α) (wt : Nat × α → Nat) (dmax source v x : Nat) (hg : InRange g) (hs : source < g.length) (hv : v ≠ source)
    (hx : IsLeast g wt source v x) (hlt : x < dmax) (r : List Nat) (h : M1 g wt dmax source (.ok r)) : ¬ Distances g wt source dmax r := by
  have hr := (m1_result g wt dmax source hs _).1 h
  cases hr
  rintro ⟨-, hd⟩
  obtain ⟨k, hk⟩ := hx.1.reachable
  have hvl := hk.lt hg hs
  have := (hd v hvl).1 x hx
  rw [List.getElem?_set, if_neg (fun e => hv e.symm), List.getElem?_replicate, if_pos hvl] at this
  cases this
  exact Nat.lt_irrefl _ hlt

/-- C26, partial.  The result is right exactly when no other vertex can be reached. -/
theorem m1_partial (g : Rows α) (wt : Nat × α → Nat) (dmax source : Nat) (hs : source < g.length)
    (hno : ∀ v, Reachable g source v → v = source) : ∃ r, M1 g wt dmax source (.ok r) ∧ Distances g wt source dmax r := by
  refine ⟨_, (m1_result g wt dmax source hs _).2 rfl, by simp, fun v hv => ⟨fun x hx => ?_, fun hn => ?_⟩⟩
  · obtain rfl := hno v hx.1.reachable
    have h0 := hx.2 0 .nil
    obtain rfl : x = 0 := by omega
    rw [List.getElem?_set, if_pos rfl, if_pos (by simpa using hs)]
  · have : source ≠ v := by
      rintro rfl
      exact hn ⟨0, .nil⟩
    rw [List.getElem?_set, if_neg this, List.getElem?_replicate, if_pos hv]

/-! ## Examples -/

/-- A weighted graph: the direct edge from 0 to 2 is heavier than the path through 1 and 3; there is a cycle and an unreachable vertex. -/
def exW : Rows Nat := [[(2, 9), (1, 1)], [(3, 2)], [(0, 4)], [(2, 1)], []]

theorem exW_usable : Usable exW (·.2) 0 9 255 where
  inRange := by decide
  sourceLt := by decide
  weights := by
    intro u e he
    rcases Nat.lt_or_ge u 5 with h | h
    · have : ∀ u < 5, ∀ e ∈ exW.getD u [], e.2 ≤ 9 := by decide
      exact this u h e he
    · rw [List.getD_eq_getElem?_getD, List.getElem?_eq_none (by simpa [exW] using h)] at he
      cases he
  noWrap := by decide

example : Delta exW (·.2) 255 3 0 (.ok [0, 1, 4, 3, 255]) := Loop.of_runFuel (n := 8) (by decide +kernel)

example : ∃ r, Delta exW (·.2) 255 3 0 (.ok r) ∧ Distances exW (·.2) 0 255 r := delta_stepping_correct exW _ 0 9 255 3 exW_usable (by decide) (by decide)

example : ∃ st, dInit exW 255 0 = .ok st ∧ Sure (DStep exW (·.2) 255) (Distances exW (·.2) 0 255) st :=
  dijkstra_small_partial exW _ 0 9 255 255 exW_usable (by decide) (by decide)

example : M1 exW (·.2) 255 0 (.ok [0, 255, 255, 255, 255]) := (m1_result _ _ _ _ (by decide) _).2 rfl

end NW.Sssp
