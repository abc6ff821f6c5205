import Verif.Model.ApbDijkstra
import Verif.Lemmas.Signed

/-!
# C138: the example apb/dijkstra.cpp

`SDistances` and `NegativeCycle` are those of `Spec/Signed`.
-/

namespace NW.ApbDijkstra
open Spec

variable {g : Rows Int} {wt : Nat × Int → Int} {s : Nat} {inf : Int}

/-! ## One relaxation -/

/-- The label of a vertex. -/
def lab (d : List Int) (v : Nat) : Int := d.getD v 0

theorem vget_lab {d : List Int} {v : Nat} (h : v < d.length) : vget d v = .ok (lab d v) := by
  rw [vget_of_lt h, lab, List.getD_eq_getElem?_getD, List.getElem?_eq_getElem h]; rfl

theorem lab_set {d : List Int} {v w : Nat} {x : Int} (h : v < d.length) : lab (d.set v x) w = if w = v then x else lab d w := by
  unfold lab
  rw [List.getD_eq_getElem?_getD, List.getD_eq_getElem?_getD, List.getElem?_set]
  by_cases c : v = w
  · subst c; simp [h]
  · rw [if_neg c, if_neg (Ne.symm c)]

/-- No label can be lowered along the first edges `l` of `z`. -/
def Closed (l : List (Nat × Int)) (wt : Nat × Int → Int) (d : List Int) (z : Nat) : Prop := ∀ e ∈ l, lab d e.1 ≤ lab d z + wt e

/-- What holds while the edges of a vertex are relaxed; `z` has been handled up to `rows z`. -/
structure Inv (g : Rows Int) (wt : Nat × Int → Int) (s : Nat) (inf : Int) (rows : Nat → List (Nat × Int)) (d : List Int) (q : List (Nat × Int)) : Prop where
  len : d.length = g.length
  src : lab d s ≤ 0
  top : ∀ v, v < g.length → lab d v ≤ inf
  walks : ∀ v, v < g.length → lab d v < inf → ∃ k, SWalk g wt s v k (lab d v)
  queue : ∀ x ∈ q, x.1 < g.length ∧ lab d x.1 < inf
  pend : ∀ z, z < g.length → lab d z < inf → (∃ x ∈ q, x.1 = z) ∨ Closed (rows z) wt d z

/-- Either nothing has changed, or no label is higher and one is lower. -/
def Lower (g : Rows Int) (d : List Int) (q : List (Nat × Int)) (d' : List Int) (q' : List (Nat × Int)) : Prop := (d' = d ∧ q' = q) ∨ ((∀ v, v < g.length → lab d' v ≤ lab d v) ∧ ∃ v, v < g.length ∧ lab d' v < lab d v)

theorem Lower.trans {d d' d'' : List Int} {q q' q'' : List (Nat × Int)} (h : Lower g d q d' q') (h' : Lower g d' q' d'' q'') : Lower g d q d'' q'' := by
  rcases h with ⟨rfl, rfl⟩ | ⟨h1, v, hv, h2⟩
  · exact h'
  · rcases h' with ⟨rfl, rfl⟩ | ⟨h3, -⟩
    · exact Or.inr ⟨h1, v, hv, h2⟩
    · exact Or.inr ⟨fun w hw => Int.le_trans (h3 w hw) (h1 w hw), v, hv, Int.lt_of_le_of_lt (h3 v hv) h2⟩

theorem relax_inv {rows : Nat → List (Nat × Int)} {d : List Int} {q : List (Nat × Int)} {u : Nat} {e : Nat × Int} (hs : s < g.length)
    (hrows : ∀ z, ∀ x ∈ rows z, x.1 < g.length) (hu : u < g.length) (hlu : lab d u < inf)
    (he : e ∈ g.getD u []) (hr : e.1 < g.length) (h : Inv g wt s inf rows d q) :
    ∃ d' q', relax wt u (d, q) e = .ok (d', q') ∧ Inv g wt s inf (fun z => if z = u then rows u ++ [e] else rows z) d' q' ∧ lab d' u < inf ∧ Lower g d q d' q' := by
  have hud : u < d.length := by rw [h.len]; exact hu
  have hed : e.1 < d.length := by rw [h.len]; exact hr
  unfold relax
  simp only [vget_lab hud, vget_lab hed, res_bind_ok]
  by_cases c : lab d u + wt e < lab d e.1
  · rw [if_pos c, vset_of_lt hed, res_bind_ok, vget_lab (by simpa using hed), res_bind_ok]
    refine ⟨_, _, rfl, ?_, ?_, Or.inr ⟨?_, e.1, hr, ?_⟩⟩
    · have hle : ∀ v, lab (d.set e.1 (lab d u + wt e)) v ≤ lab d v := by
        intro v
        rw [lab_set hed]
        split
        · rename_i hv; subst hv; omega
        · exact Int.le_refl _
      have hinf := h.top e.1 hr
      refine ⟨by simpa using h.len, Int.le_trans (hle s) h.src, fun v hv => Int.le_trans (hle v) (h.top v hv), ?_, ?_, ?_⟩
      · intro v hv hl
        rw [lab_set hed] at hl ⊢
        split
        · rename_i hve
          subst hve
          obtain ⟨k, hk⟩ := h.walks u hu hlu
          exact ⟨_, hk.snoc he⟩
        · rename_i hve
          rw [if_neg hve] at hl
          exact h.walks v hv hl
      · intro x hx
        rcases List.mem_append.1 hx with hx | hx
        · exact ⟨(h.queue x hx).1, Int.lt_of_le_of_lt (hle _) (h.queue x hx).2⟩
        · simp at hx
          subst hx
          refine ⟨hr, ?_⟩
          show lab _ e.1 < inf
          rw [lab_set hed, if_pos rfl]; omega
      · intro z hz hl
        by_cases hze : z = e.1
        · exact Or.inl ⟨(e.1, _), List.mem_append_right _ (List.mem_singleton.2 rfl), hze.symm⟩
        · have hlz : lab (d.set e.1 (lab d u + wt e)) z = lab d z := by rw [lab_set hed, if_neg hze]
          rw [hlz] at hl
          rcases h.pend z hz hl with ⟨x, hx, hxz⟩ | hc
          · exact Or.inl ⟨x, List.mem_append_left _ hx, hxz⟩
          · refine Or.inr ?_
            intro y hy
            rw [hlz]
            by_cases hzu : z = u
            · subst hzu
              rw [if_pos rfl] at hy
              rcases List.mem_append.1 hy with hy | hy
              · exact Int.le_trans (hle _) (hc y hy)
              · simp at hy; subst hy
                rw [lab_set hed, if_pos rfl]
            · rw [if_neg hzu] at hy
              exact Int.le_trans (hle _) (hc y hy)
    · rw [lab_set hed]
      split
      · have := h.top e.1 hr
        omega
      · exact hlu
    · intro v _
      rw [lab_set hed]
      split
      · rename_i hv; subst hv; omega
      · exact Int.le_refl _
    · rw [lab_set hed, if_pos rfl]; exact c
  · rw [if_neg c]
    refine ⟨d, q, rfl, ⟨h.len, h.src, h.top, h.walks, h.queue, ?_⟩, hlu, Or.inl ⟨rfl, rfl⟩⟩
    intro z hz hl
    rcases h.pend z hz hl with hq | hc
    · exact Or.inl hq
    · refine Or.inr ?_
      intro y hy
      by_cases hzu : z = u
      · subst hzu
        rw [if_pos rfl] at hy
        rcases List.mem_append.1 hy with hy | hy
        · exact hc y hy
        · simp at hy; subst hy; omega
      · rw [if_neg hzu] at hy
        exact hc y hy

theorem scan_inv (hg : InRange g) (hs : s < g.length) {u : Nat} (hu : u < g.length) (l : List (Nat × Int)) :
    ∀ (done : List (Nat × Int)) (rows : Nat → List (Nat × Int)) (d : List Int) (q : List (Nat × Int)), g.getD u [] = done ++ l → rows u = done → (∀ z, ∀ x ∈ rows z, x.1 < g.length) →
      lab d u < inf → Inv g wt s inf rows d q →
      ∃ d' q', l.foldlM (relax wt u) (d, q) = .ok (d', q') ∧ Inv g wt s inf (fun z => if z = u then g.getD u [] else rows z) d' q' ∧ Lower g d q d' q' := by
  induction l with
  | nil =>
    intro done rows d q hrow hdone hrows hlu h
    refine ⟨d, q, rfl, ?_, Or.inl ⟨rfl, rfl⟩⟩
    have : (fun z => if z = u then g.getD u [] else rows z) = rows := by
      funext z
      split
      · rename_i hz; subst hz; rw [hrow, hdone]; simp
      · rfl
    rw [this]; exact h
  | cons e l ih =>
    intro done rows d q hrow hdone hrows hlu h
    have he : e ∈ g.getD u [] := by rw [hrow]; simp
    have hr : e.1 < g.length := hg u e.1 (List.mem_map_of_mem he)
    obtain ⟨d₁, q₁, e1, i1, l1, w1⟩ := relax_inv hs hrows hu hlu he hr h
    obtain ⟨d₂, q₂, e2, i2, w2⟩ := ih (done ++ [e]) _ d₁ q₁ (by rw [hrow]; simp) (by rw [if_pos rfl, hdone]) (by
      intro z x hx
      split at hx
      · rcases List.mem_append.1 hx with hx | hx
        · exact hrows u x hx
        · simp at hx; subst hx; exact hr
      · exact hrows z x hx) l1 i1
    refine ⟨d₂, q₂, ?_, ?_, w1.trans w2⟩
    · rw [List.foldlM_cons, e1, res_bind_ok, e2]
    · have : (fun z => if z = u then g.getD u [] else (fun z => if z = u then rows u ++ [e] else rows z) z) = fun z => if z = u then g.getD u [] else rows z := by
        funext z
        by_cases hz : z = u
        · simp [hz]
        · simp [hz]
      rw [this] at i2
      exact i2

/-! ## The loop -/

abbrev LoopInv (g : Rows Int) (wt : Nat × Int → Int) (s : Nat) (inf : Int) (st : State) : Prop := Inv g wt s inf (fun z => g.getD z []) st.1 st.2

theorem pop_inv (hg : InRange g) (hs : s < g.length) {d : List Int} {q q' : List (Nat × Int)} {u : Nat} {x : Int} (hp : q.Perm ((u, x) :: q')) (h : LoopInv g wt s inf (d, q)) :
    ∃ d₁ q₁, (do let r ← vget g u
                 let st ← r.foldlM (relax wt u) (d, q')
                 return .inl st : Res (State ⊕ State)) = .ok (.inl (d₁, q₁)) ∧ LoopInv g wt s inf (d₁, q₁) ∧ Lower g d q' d₁ q₁ := by
  obtain ⟨hu, hlu⟩ := h.queue (u, x) (hp.mem_iff.2 (by simp))
  have hrow : vget g u = .ok (g.getD u []) := by rw [vget_of_lt hu, List.getD_eq_getElem?_getD, List.getElem?_eq_getElem hu]; rfl
  obtain ⟨d₁, q₁, e1, i1, w1⟩ := scan_inv hg hs hu (g.getD u []) [] (fun z => if z = u then [] else g.getD z []) d q' (by simp) (by simp)
    (by
      intro z y hy
      split at hy
      · cases hy
      · exact hg z y.1 (List.mem_map_of_mem hy)) hlu
    ⟨h.len, h.src, h.top, h.walks, fun y hy => h.queue y (hp.mem_iff.2 (List.mem_cons_of_mem _ hy)), by
      intro z hz hl
      by_cases hzu : z = u
      · right; intro y hy; rw [if_pos hzu] at hy; cases hy
      · rcases h.pend z hz hl with ⟨y, hy, hyz⟩ | hc
        · rcases List.mem_cons.1 (hp.mem_iff.1 hy) with rfl | hy
          · exact absurd hyz.symm hzu
          · exact Or.inl ⟨y, hy, hyz⟩
        · right; rw [if_neg hzu]; exact hc⟩
  refine ⟨d₁, q₁, ?_, ?_, w1⟩
  · rw [hrow, res_bind_ok, e1, res_bind_ok]; rfl
  · have : (fun z => if z = u then g.getD u [] else (fun z => if z = u then [] else g.getD z []) z) = fun z => g.getD z [] := by
      funext z
      by_cases hz : z = u
      · simp [hz]
      · simp [hz]
    rw [this] at i1
    exact i1

theorem step_inv (hg : InRange g) (hs : s < g.length) {st : State} (h : LoopInv g wt s inf st) {o : Res (State ⊕ State)} (ho : Step g wt st o) :
    (∃ d, st = (d, []) ∧ o = .ok (.inr (d, []))) ∨
    ∃ st' q', o = .ok (.inl st') ∧ LoopInv g wt s inf st' ∧ Lower g st.1 q' st'.1 st'.2 ∧ q'.length < st.2.length := by
  cases ho with
  | done => exact Or.inl ⟨_, rfl, rfl⟩
  | @pop d q q' u x hp =>
    obtain ⟨d₁, q₁, e1, i1, w1⟩ := pop_inv hg hs hp h
    refine Or.inr ⟨(d₁, q₁), q', e1, i1, w1, ?_⟩
    have := hp.length_eq
    simp at this
    show q'.length < q.length
    omega

/-- The rest above the least possible label. -/
def height (B : Int) (d : List Int) : Nat := (d.map fun x => (x + B).toNat).sum

theorem height_le (B : Int) : ∀ (d d' : List Int), d'.length = d.length → (∀ v, v < d.length → lab d' v ≤ lab d v) → height B d' ≤ height B d
  | [], [], _, _ => Nat.le_refl _
  | x :: d, y :: d', hl, h => by
    have h1 : y ≤ x := h 0 (by simp)
    have h2 := height_le B d d' (by simpa using hl) fun v hv => h (v + 1) (by simpa using hv)
    unfold height at h2 ⊢
    simp only [List.map_cons, List.sum_cons]
    omega

theorem height_lt (B : Int) : ∀ (d d' : List Int), d'.length = d.length → (∀ v, v < d.length → lab d' v ≤ lab d v) → (∀ v, v < d.length → -B ≤ lab d' v) →
    (∃ v, v < d.length ∧ lab d' v < lab d v) → height B d' < height B d
  | [], [], _, _, _, ⟨v, hv, _⟩ => by cases hv
  | x :: d, y :: d', hl, h, hB, ⟨v, hv, hlt⟩ => by
    have h1 : y ≤ x := h 0 (by simp)
    have h2 : -B ≤ y := hB 0 (by simp)
    have hle := height_le B d d' (by simpa using hl) fun v hv => h (v + 1) (by simpa using hv)
    cases v with
    | zero =>
      have h3 : y < x := hlt
      unfold height at hle ⊢
      simp only [List.map_cons, List.sum_cons]
      omega
    | succ v =>
      have h3 := height_lt B d d' (by simpa using hl) (fun v hv => h (v + 1) (by simpa using hv)) (fun v hv => hB (v + 1) (by simpa using hv)) ⟨v, by simpa using hv, hlt⟩
      unfold height at h3 ⊢
      simp only [List.map_cons, List.sum_cons]
      omega

/-- The circumstances: neighbours and source are vertices, no weight exceeds `W` in either direction, and no path is as heavy as `inf`. -/
structure Usable (g : Rows Int) (wt : Nat × Int → Int) (s : Nat) (W inf : Int) : Prop where
  inRange : InRange g
  sourceLt : s < g.length
  weights : ∀ u, ∀ e ∈ g.getD u [], -W ≤ wt e ∧ wt e ≤ W
  small : g.length * W < inf
  pos : 0 < inf

variable {W : Int}

theorem Usable.walk_small (hu : Usable g wt s W inf) {v k : Nat} {x : Int} (h : SWalk g wt s v k x) (hk : k < g.length) : k * W < inf := by
  rcases Int.lt_or_le W 0 with hW | hW
  · have : (k : Int) * W ≤ 0 := Int.mul_nonpos_of_nonneg_of_nonpos (by omega) (by omega)
    have := hu.pos
    omega
  · have : (k : Int) * W ≤ g.length * W := Int.mul_le_mul_of_nonneg_right (by omega) hW
    have := hu.small
    omega

/-- When the queue is empty, no walk with few edges is lighter than the label of its end. -/
theorem final_le (hu : Usable g wt s W inf) {d : List Int} (h : LoopInv g wt s inf (d, [])) {v k : Nat} {x : Int} (hw : SWalk g wt s v k x) (hk : k < g.length) :
    lab d v ≤ x ∧ lab d v < inf := by
  induction hw with
  | nil => exact ⟨h.src, Int.lt_of_le_of_lt h.src hu.pos⟩
  | @snoc u k x e hw he ih =>
    obtain ⟨h1, h2⟩ := ih (by omega)
    have hlu := hw.lt hu.inRange hu.sourceLt
    rcases h.pend u hlu h2 with ⟨y, hy, -⟩ | hc
    · cases hy
    · have h3 := hc e he
      have hw' := hw.snoc he
      have h4 := (hw'.bounds hu.weights).2
      have h5 := hu.walk_small hw' hk
      dsimp only at h3
      omega

theorem final_reached (hu : Usable g wt s W inf) {d : List Int} (h : LoopInv g wt s inf (d, [])) {v : Nat} (hr : Reachable g s v) : lab d v < inf := by
  obtain ⟨k, x, hw⟩ := hr.swalk wt
  obtain ⟨k', x', h1, h2, -⟩ := hw.shorten hu.inRange hu.sourceLt
  exact (final_le hu h h2 h1).2

theorem final_distances (hu : Usable g wt s W inf) (hn : ¬ NegativeCycle g wt s) {d : List Int} (h : LoopInv g wt s inf (d, [])) : SDistances g wt s inf d := by
  refine ⟨h.len, fun v hv => ?_⟩
  have hd : d[v]? = some (lab d v) := by
    have hv' : v < d.length := by rw [h.len]; exact hv
    unfold lab
    rw [List.getD_eq_getElem?_getD, List.getElem?_eq_getElem hv']; rfl
  refine ⟨fun hr => ⟨lab d v, ⟨h.walks v hv (final_reached hu h hr), fun k y hw => ?_⟩, hd⟩, fun hr => ?_⟩
  · obtain ⟨k', x', h1, h2, h3⟩ := hw.shorten hu.inRange hu.sourceLt
    exact Int.le_trans (final_le hu h h2 h1).1 (h3 hn)
  · have h2 : lab d v ≤ inf := h.top v hv
    have h1 : ¬ lab d v < inf := fun hl => by
      obtain ⟨k, hk⟩ := h.walks v hv hl
      exact hr hk.reachable
    rw [hd, show lab d v = inf by omega]

/-- When the queue is empty, no cycle that can be reached is negative. -/
theorem final_no_negative (hu : Usable g wt s W inf) {d : List Int} (h : LoopInv g wt s inf (d, [])) : ¬ NegativeCycle g wt s := by
  rintro ⟨v, k, y, ⟨m, hr⟩, hw, hy⟩
  have key : ∀ {w k : Nat} {x : Int}, SWalk g wt v w k x → Reachable g s w ∧ lab d w ≤ lab d v + x := by
    intro w k x hw
    induction hw with
    | nil => exact ⟨⟨m, hr⟩, by omega⟩
    | @snoc u k x e hw he ih =>
      obtain ⟨⟨j, hj⟩, h2⟩ := ih
      refine ⟨⟨j + 1, .snoc hj (List.mem_map_of_mem he)⟩, ?_⟩
      have hlu : u < g.length := hj.lt hu.inRange hu.sourceLt
      rcases h.pend u hlu (final_reached hu h ⟨j, hj⟩) with ⟨z, hz, -⟩ | hc
      · cases hz
      · have h3 := hc e he
        dsimp only at h3
        omega
  have := (key hw).2
  omega

theorem loop_sure (hu : Usable g wt s W inf) (hn : ¬ NegativeCycle g wt s) {st : State} (h : LoopInv g wt s inf st) :
    Sure (Step g wt) (fun st' => SDistances g wt s inf st'.1 ∧ st'.2 = []) st := by
  have wf : WellFounded (Prod.Lex (· < ·) (· < ·) : Nat × Nat → Nat × Nat → Prop) := (Prod.lex Nat.lt_wfRel Nat.lt_wfRel).wf
  let B : Int := g.length * W
  have hB : ∀ {d : List Int} {q : List (Nat × Int)}, LoopInv g wt s inf (d, q) → ∀ v, v < g.length → -(B.natAbs : Int) ≤ lab d v := by
    intro d q hI v hv
    by_cases hl : lab d v < inf
    · obtain ⟨k, hk⟩ := hI.walks v hv hl
      obtain ⟨k', x', h1, h2, h3⟩ := hk.shorten hu.inRange hu.sourceLt
      have h4 : x' ≤ lab d v := h3 hn
      have h5 := (h2.bounds hu.weights).1
      have h6 : (k' : Int) * W ≤ B.natAbs := by
        rcases Int.lt_or_le W 0 with hW | hW
        · have : (k' : Int) * W ≤ 0 := Int.mul_nonpos_of_nonneg_of_nonpos (by omega) (by omega)
          omega
        · have : (k' : Int) * W ≤ g.length * W := Int.mul_le_mul_of_nonneg_right (by omega) hW
          have : B = g.length * W := rfl
          omega
      omega
    · have := hu.pos
      omega
  refine Sure.of_inv wf (fun st => (height B.natAbs st.1, st.2.length)) (LoopInv g wt s inf) ?_ ?_ st h
  · rintro ⟨d, q⟩ _
    cases q with
    | nil => exact ⟨_, .done⟩
    | cons x q => exact ⟨_, .pop (u := x.1) (d := x.2) (List.Perm.refl _)⟩
  · intro st o hI ho
    rcases step_inv hu.inRange hu.sourceLt hI ho with ⟨d, rfl, rfl⟩ | ⟨st', q', rfl, hI', hlow, hlen⟩
    · exact Or.inr ⟨_, rfl, final_distances hu hn hI, rfl⟩
    · refine Or.inl ⟨st', rfl, hI', ?_⟩
      rcases hlow with ⟨h1, h2⟩ | ⟨h1, h2⟩
      · show Prod.Lex _ _ (height _ st'.1, st'.2.length) (height _ st.1, st.2.length)
        rw [h1, h2]
        exact Prod.Lex.right _ hlen
      · refine Prod.Lex.left _ _ (height_lt _ _ _ ?_ ?_ ?_ ?_)
        · rw [hI'.len, hI.len]
        · rw [hI.len]; exact h1
        · rw [hI.len]; exact hB hI'
        · rw [hI.len]; exact h2

theorem loop_endless (hu : Usable g wt s W inf) (hn : NegativeCycle g wt s) {st : State} {o : Res State} (hr : Runs (Step g wt) st o) : ¬ LoopInv g wt s inf st := by
  induction hr with
  | done hs =>
    intro h
    rcases step_inv hu.inRange hu.sourceLt h hs with ⟨d, rfl, -⟩ | ⟨_, _, h1, -⟩
    · exact final_no_negative hu h hn
    · cases h1
  | fault hs =>
    intro h
    rcases step_inv hu.inRange hu.sourceLt h hs with ⟨d, -, h1⟩ | ⟨_, _, h1, -⟩ <;> cases h1
  | step hs _ ih =>
    intro h
    rcases step_inv hu.inRange hu.sourceLt h hs with ⟨d, -, h1⟩ | ⟨_, _, h1, h2, -⟩
    · cases h1
    · cases h1; exact ih h2

theorem init_inv (hu : Usable g wt s W inf) : LoopInv g wt s inf ((List.replicate g.length inf).set s 0, [(s, 0)]) := by
  have hl : ∀ v, v < g.length → lab ((List.replicate g.length inf).set s 0) v = if v = s then 0 else inf := by
    intro v hv
    rw [lab_set (by simpa using hu.sourceLt)]
    split
    · rfl
    · unfold lab; rw [List.getD_eq_getElem?_getD]; simp [hv]
  have hpos := hu.pos
  have hst := hu.sourceLt
  refine ⟨by simp, ?_, ?_, ?_, ?_, ?_⟩
  · dsimp only; rw [hl s hst, if_pos rfl]
  · intro v hv
    dsimp only; rw [hl v hv]; split <;> omega
  · intro v hv h
    dsimp only at h ⊢
    rw [hl v hv] at h ⊢
    split
    · rename_i hv; subst hv; exact ⟨0, .nil⟩
    · rename_i hv; rw [if_neg hv] at h; omega
  · intro x hx
    simp at hx; subst hx
    refine ⟨hst, ?_⟩
    dsimp only; rw [hl s hst, if_pos rfl]; exact hpos
  · intro z hz h
    dsimp only at h
    rw [hl z hz] at h
    split at h
    · rename_i h1; exact Or.inl ⟨(s, 0), by simp, h1.symm⟩
    · omega

/-! ## The trials and the program -/

/-- C138, one trial: it ends, whatever the queue hands out, and leaves the least weights and an empty queue. -/
theorem trial_correct (hu : Usable g wt s W inf) (hn : ¬ NegativeCycle g wt s) {d₀ : List Int} (hd : d₀.length = g.length) :
    Run.Gives (trial g wt inf s (d₀, [])) fun st => SDistances g wt s inf st.1 ∧ st.2 = [] := by
  unfold trial
  simp only [hd, List.nil_append]
  refine Run.Gives.bind (Run.gives_lift (vset_of_lt (by simpa using hu.sourceLt)) rfl) ?_
  rintro _ rfl
  refine Run.Gives.bind (Run.gives_lift (a := 0) (by rw [vget_of_lt (by simpa using hu.sourceLt)]; simp) rfl) ?_
  rintro _ rfl
  have hsure := loop_sure hu hn (init_inv hu)
  exact ⟨hsure.exists_run.elim fun r hr => ⟨_, hr.1⟩, fun o ho => hsure.outcome ho⟩

theorem trial_endless (hu : Usable g wt s W inf) (hn : NegativeCycle g wt s) {d₀ : List Int} (hd : d₀.length = g.length) (o : Res State) : ¬ trial g wt inf s (d₀, []) o := by
  intro ho
  unfold trial at ho
  simp only [hd, List.nil_append] at ho
  rcases ho with ⟨d, h1, ho⟩ | ⟨f, h1, -⟩
  · have h1' : Except.ok d = vset (List.replicate g.length inf) s 0 := h1
    rw [vset_of_lt (by simpa using hu.sourceLt)] at h1'
    cases h1'
    rcases ho with ⟨x, h2, ho⟩ | ⟨f, h2, -⟩
    · have h2' : Except.ok x = vget ((List.replicate g.length inf).set s 0) s := h2
      rw [vget_of_lt (by simpa using hu.sourceLt)] at h2'
      simp at h2'
      subst h2'
      exact loop_endless hu hn ho (init_inv hu)
    · have h2' : Except.error f = vget ((List.replicate g.length inf).set s 0) s := h2
      rw [vget_of_lt (by simpa using hu.sourceLt)] at h2'
      cases h2'
  · have h1' : Except.error f = vset (List.replicate g.length inf) s 0 := h1
    rw [vset_of_lt (by simpa using hu.sourceLt)] at h1'
    cases h1'

theorem trials_correct (hu : Usable g wt s W inf) (hn : ¬ NegativeCycle g wt s) (ntrial : Nat) {d₀ : List Int} (hd : d₀.length = g.length) :
    Run.Gives (trials g wt inf ntrial s (d₀, [])) fun a => a.1.1.length = g.length ∧ a.1.2 = [] ∧ a.2.length = ntrial ∧ ∀ r ∈ a.2, SDistances g wt s inf r := by
  unfold trials
  have := Run.gives_foldlM (f := fun (a : State × List (List Int)) (_ : Nat) => do
    let st ← trial g wt inf s a.1
    return (st, a.2 ++ [st.1])) (l := List.range ntrial)
    (fun done a => a.1.1.length = g.length ∧ a.1.2 = [] ∧ a.2.length = done.length ∧ ∀ r ∈ a.2, SDistances g wt s inf r) (s := ((d₀, []), [])) ⟨hd, rfl, rfl, by simp⟩
    (by
      rintro done x rest - ⟨⟨d, q⟩, out⟩ ⟨h1, h2, h3, h4⟩
      dsimp only at h2
      subst h2
      refine (trial_correct hu hn h1).bind ?_
      rintro ⟨d', q'⟩ ⟨k1, k2⟩
      refine Run.gives_pure ⟨k1.1, k2, by simp at h3; simp [h3], ?_⟩
      intro r hr
      rcases List.mem_append.1 hr with hr | hr
      · exact h4 r hr
      · simp at hr; subst hr; exact k1)
  simpa using this

/-- The example runs well with one way to get the weights. -/
structure Good (g : Rows Int) (wt : Nat × Int → Int) (s : Nat) (inf : Int) : Prop where
  usable : ∃ W, Usable g wt s W inf
  noNegative : ¬ NegativeCycle g wt s

theorem variants_correct (ntrial : Nat) (vs : List (String × (Nat × Int → Int) × Bool)) (hv : ∀ x ∈ vs, Good g x.2.1 s inf) :
    Run.Gives (vs.foldlM (fun (a : State × List String × List (List Int)) x => do
        let (st, out) ← trials g x.2.1 inf ntrial s a.1
        return (st, a.2.1 ++ (if x.2.2 then [x.1] else []), a.2.2 ++ out)) ((List.replicate g.length inf, []), [], []))
      fun a => a.1.1.length = g.length ∧ a.1.2 = [] ∧ a.2.1 = (vs.filter (·.2.2)).map (·.1) ∧ a.2.2.length = vs.length * ntrial ∧
        ∀ i r, a.2.2[i]? = some r → ∃ x, vs[i / ntrial]? = some x ∧ SDistances g x.2.1 s inf r := by
  refine Run.gives_foldlM (fun (pre : List (String × (Nat × Int → Int) × Bool)) (a : State × List String × List (List Int)) => a.1.1.length = g.length ∧ a.1.2 = [] ∧
    a.2.1 = (pre.filter (·.2.2)).map (·.1) ∧ a.2.2.length = pre.length * ntrial ∧
    ∀ i r, a.2.2[i]? = some r → ∃ x, pre[i / ntrial]? = some x ∧ SDistances g x.2.1 s inf r) ⟨by simp, rfl, rfl, by simp, by simp⟩ ?_
  rintro pre x post hvs ⟨⟨d, q⟩, lines, res⟩ ⟨h1, h2, h3, h4, h5⟩
  dsimp only at h1 h2 h3 h4 h5
  subst h2
  obtain ⟨⟨W, hu⟩, hn⟩ := hv x (by rw [hvs]; simp)
  refine (trials_correct hu hn ntrial h1).bind ?_
  rintro ⟨⟨d', q'⟩, out⟩ ⟨k1, k2, k3, k4⟩
  dsimp only at k3 k4
  refine Run.gives_pure ⟨k1, k2, ?_, ?_, ?_⟩
  · dsimp only
    rw [h3, List.filter_append, List.map_append]
    congr 1
    by_cases c : x.2.2 <;> simp [c]
  · dsimp only
    rw [List.length_append, h4, k3, List.length_append, Nat.add_mul]; simp
  · intro i r hr
    dsimp only at hr
    rcases Nat.lt_or_ge i res.length with hi | hi
    · rw [List.getElem?_append_left hi] at hr
      obtain ⟨y, hy1, hy2⟩ := h5 i r hr
      refine ⟨y, ?_, hy2⟩
      rw [List.getElem?_append_left (List.getElem?_eq_some_iff.1 hy1).1]; exact hy1
    · rw [List.getElem?_append_right hi] at hr
      have hlt : i - res.length < ntrial := by
        have := (List.getElem?_eq_some_iff.1 hr).1
        omega
      refine ⟨x, ?_, k4 r (List.mem_of_getElem? hr)⟩
      have hdiv : i / ntrial = pre.length := by
        have h6 : i = i - res.length + pre.length * ntrial := by omega
        rw [h6, Nat.add_mul_div_right _ _ (by omega), Nat.div_eq_of_lt hlt, Nat.zero_add]
      rw [hdiv]; simp

/-- C138.  For every graph whose weights, whether read from the edges or through the function, form no negative cycle that can be reached from the seed, and in whatever order the queue hands out its entries, the
example ends.  Each trial of the six variants leaves the least weights of the walks from the seed; the second and the fifth variant use the function.  Missing: a line of output for each variant (`apb_dijkstra_line_wrong`). -/
theorem apb_dijkstra_correct_partial (fun_ : Nat × Int → Int) (h₁ : Good g (·.2) s inf) (h₂ : Good g fun_ s inf) (ntrial : Nat) :
    Run.Gives (apbAdj g inf ntrial s fun_) fun a => a.2.length = 6 * ntrial ∧
      ∀ v t r, v < 6 → t < ntrial → a.2[v * ntrial + t]? = some r → SDistances g (if v = 1 ∨ v = 4 then fun_ else (·.2)) s inf r := by
  unfold apbAdj
  refine (variants_correct ntrial (variants fun_) ?_).bind ?_
  · intro x hx
    simp only [variants, List.mem_cons, List.not_mem_nil, or_false] at hx
    rcases hx with rfl | rfl | rfl | rfl | rfl | rfl <;> assumption
  · rintro ⟨st, lines, res⟩ ⟨-, -, -, h4, h5⟩
    refine Run.gives_pure ⟨h4, fun v t r hv ht hr => ?_⟩
    obtain ⟨x, hx, hd⟩ := h5 _ r hr
    have hdiv : (v * ntrial + t) / ntrial = v := by
      rw [Nat.add_comm, Nat.add_mul_div_right _ _ (by omega), Nat.div_eq_of_lt ht, Nat.zero_add]
    rw [hdiv] at hx
    match v, hv with
    | 0, _ | 1, _ | 2, _ | 3, _ | 4, _ | 5, _ => simp [variants] at hx; subst hx; exact hd

/-- C138: as the program calls it, the weights are those of the edges in all variants. -/
theorem apb_dijkstra_program (h : Good g (·.2) s inf) (ntrial : Nat) : Run.Gives (apbAdj g inf ntrial s (·.2)) fun a => a.2.length = 6 * ntrial ∧ ∀ r ∈ a.2, SDistances g (·.2) s inf r := by
  refine (apb_dijkstra_correct_partial (·.2) h h ntrial).mono fun a ha => ⟨ha.1, fun r hr => ?_⟩
  obtain ⟨i, hi, hri⟩ := List.getElem_of_mem hr
  have hn : 0 < ntrial := by
    rcases Nat.eq_zero_or_pos ntrial with h0 | h0
    · subst h0; omega
    · exact h0
  have := ha.2 (i / ntrial) (i % ntrial) r (by rw [Nat.div_lt_iff_lt_mul hn]; omega) (Nat.mod_lt _ hn) (by
    rw [Nat.div_add_mod', List.getElem?_eq_getElem hi, hri])
  simpa using this

/-- C138, the output: there are six variants, but no line for the fourth. -/
theorem apb_dijkstra_line_wrong (fun_ : Nat × Int → Int) (h₁ : Good g (·.2) s inf) (h₂ : Good g fun_ s inf) (ntrial : Nat) :
    Run.Gives (apbAdj g inf ntrial s fun_) fun a => a.1 = ["Access stored properties directly", "Access stored properties through (inlinable) lambda function",
      "access stored properties directly and neighbors through CPO", "All indirections", "No indirections (again)"] := by
  unfold apbAdj
  refine (variants_correct ntrial (variants fun_) ?_).bind ?_
  · intro x hx
    simp only [variants, List.mem_cons, List.not_mem_nil, or_false] at hx
    rcases hx with rfl | rfl | rfl | rfl | rfl | rfl <;> assumption
  · rintro ⟨st, lines, res⟩ ⟨-, -, h3, -, -⟩
    exact Run.gives_pure (by simpa [variants] using h3)

theorem run_first {A B : Type} {m : Run A} {k : A → Run B} {o : Res B} (h : (m >>= k) o) : ∃ o', m o' := by
  rcases h with ⟨a, h1, -⟩ | ⟨f, h1, -⟩
  · exact ⟨_, h1⟩
  · exact ⟨_, h1⟩

/-- If the example ends, so does its first trial. -/
theorem first_trial (fun_ : Nat × Int → Int) (ntrial : Nat) (hn : 0 < ntrial) {o : Res (List String × List (List Int))} (ho : apbAdj g inf ntrial s fun_ o) :
    ∃ o', trial g (·.2) inf s (List.replicate g.length inf, []) o' := by
  obtain ⟨n, rfl⟩ : ∃ n, ntrial = n + 1 := ⟨ntrial - 1, by omega⟩
  unfold apbAdj at ho
  rw [variants, List.foldlM_cons] at ho
  obtain ⟨o₁, h1⟩ := run_first ho
  obtain ⟨o₂, h2⟩ := run_first h1
  obtain ⟨o₃, h3⟩ := run_first h2
  unfold trials at h3
  rw [List.range_succ_eq_map, List.foldlM_cons] at h3
  obtain ⟨o₄, h4⟩ := run_first h3
  exact run_first h4

/-- C138: if a negative cycle can be reached from the seed, the example never ends, whatever the order of the queue. -/
theorem apb_dijkstra_endless (fun_ : Nat × Int → Int) (hu : Usable g (·.2) s W inf) (hc : NegativeCycle g (·.2) s) (ntrial : Nat) (hn : 0 < ntrial) : ¬ ∃ o, apbAdj g inf ntrial s fun_ o := by
  rintro ⟨o, ho⟩
  obtain ⟨o', h1⟩ := first_trial fun_ ntrial hn ho
  exact trial_endless hu hc (by simp) o' h1

/-- C138: the seed is not checked.  If it is not a vertex, the first trial writes out of bounds. -/
theorem apb_dijkstra_seed_wrong (fun_ : Nat × Int → Int) (hs : g.length ≤ s) (ntrial : Nat) (hn : 0 < ntrial) : Run.Faults (apbAdj g inf ntrial s fun_) .outOfBounds := by
  obtain ⟨n, rfl⟩ : ∃ n, ntrial = n + 1 := ⟨ntrial - 1, by omega⟩
  have h1 : Run.Faults (trial g (·.2) inf s (List.replicate g.length inf, [])) .outOfBounds := by
    unfold trial
    exact (Run.faults_lift (vset_of_ge (by simpa using hs))).bind
  have h2 : Run.Faults (trials g (·.2) inf (n + 1) s (List.replicate g.length inf, [])) .outOfBounds := by
    unfold trials
    rw [List.range_succ_eq_map, List.foldlM_cons]
    exact h1.bind.bind
  unfold apbAdj
  rw [variants, List.foldlM_cons]
  exact h2.bind.bind.bind

/-! ## The hypotheses can be met -/

/-- Four vertices, with a negative edge; the last vertex cannot be reached from 0. -/
def exG : Rows Int := [[(1, 4), (2, 2)], [(2, -3)], [(0, 1)], [(0, 1)]]

theorem exG_usable : Usable exG (·.2) 0 4 1000 where
  inRange := by decide
  sourceLt := by decide
  weights := by
    intro u e he
    match u with
    | 0 | 1 | 2 | 3 => revert e; decide
    | u + 4 => simp [exG] at he
  small := by decide
  pos := by decide

/-- A potential shows that there is no negative cycle. -/
theorem noNegative_of_potential {g : Rows Int} {wt : Nat × Int → Int} {s : Nat} (π : Nat → Int) (h : ∀ u, ∀ e ∈ g.getD u [], π e.1 ≤ π u + wt e) : ¬ NegativeCycle g wt s := by
  rintro ⟨v, k, y, -, hw, hy⟩
  have key : ∀ {w k : Nat} {x : Int}, SWalk g wt v w k x → π w ≤ π v + x := by
    intro w k x hw
    induction hw with
    | nil => omega
    | @snoc u k x e _ he ih =>
      have := h u e he
      omega
  have := key hw
  omega

theorem exG_good : Good exG (·.2) 0 1000 where
  usable := ⟨4, exG_usable⟩
  noNegative := by
    refine noNegative_of_potential (fun v => if v = 1 then 4 else if v = 2 then 1 else 0) fun u e he => ?_
    match u with
    | 0 | 1 | 2 | 3 => revert e; decide
    | u + 4 => simp [exG] at he

/-- Without taking the negative edge the third distance would be 2. -/
example : Run.Gives (apbAdj exG 1000 3 0 (·.2)) fun a => a.2.length = 18 ∧ ∀ r ∈ a.2, ∃ x, SLeast exG (·.2) 0 2 x ∧ r[2]? = some x ∧ x ≤ 1 :=
  (apb_dijkstra_program exG_good 3).mono fun a ha => ⟨ha.1, fun r hr => by
    obtain ⟨x, h1, h2⟩ := ((ha.2 r hr).2 2 (by decide)).1 ⟨1, .snoc .nil (by decide)⟩
    have hw : SWalk exG (·.2) 0 2 2 1 := .snoc (e := (2, -3)) (.snoc (e := (1, 4)) .nil (by decide)) (by decide)
    exact ⟨x, h1, h2, h1.2 2 1 hw⟩⟩

example : ¬ ∃ o, apbAdj [[(1, 1)], [(0, -2)]] 1000 1 0 (·.2) o := by
  refine apb_dijkstra_endless (W := 2) _ ⟨by decide, by decide, ?_, by decide, by decide⟩ ⟨0, 2, -1, ⟨0, .nil⟩, .snoc (e := (0, -2)) (.snoc (e := (1, 1)) .nil (by decide)) (by decide), by decide⟩ 1 (by decide)
  intro u e he
  match u with
  | 0 | 1 => revert e; decide
  | u + 2 => simp at he

example : Run.Faults (apbAdj exG 1000 1 4 (·.2)) .outOfBounds := apb_dijkstra_seed_wrong _ (by decide) 1 (by decide)

end NW.ApbDijkstra
