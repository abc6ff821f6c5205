import Verif.Lemmas.BrandesBack
import Verif.Props.Brandes

/-!
# C41: the parallel betweenness routine

Whatever the scheduling, the routine ends without a fault; the score of `v` is the sum, over all sources, of the dependency of the source on `v`.
The sequential routine (and the definition of betweenness) leaves out the source `v` itself; the parallel one does not, so a source that reaches
other vertices gets a larger score.  When the path counts have an integral type the quotients are rounded down as well.
-/

namespace NW.BrandesPar
open Spec
open NW.Brandes (Vec)

variable {α : Type}

open Classical in
/-- The distance from `s`, if there is one. -/
noncomputable def distD (g : Rows α) (s v : Nat) : Option Nat := if h : ∃ d, IsDist g s v d then some h.choose else none

theorem distD_iff (g : Rows α) (s v d : Nat) : distD g s v = some d ↔ IsDist g s v d := by
  unfold distD
  constructor
  · intro h
    split at h
    · rename_i hd; cases h; exact hd.choose_spec
    · cases h
  · intro h
    have hd : ∃ d, IsDist g s v d := ⟨d, h⟩
    rw [dif_pos hd, hd.choose_spec.unique h]

/-- With exact division the recursion is solved by the dependencies. -/
theorem rec_exact {c : Args α} {s : Nat} {D : Nat → Option Nat} (hg : InRange c.g) (hs : s < c.g.length) (hD : ∀ v d, D v = some d ↔ IsDist c.g s v d)
    (hdv : c.dv = .exact) : Rec c s D (dependency c.g s) := by
  intro u k hu
  have h1 := acc_rec hg hs hD hu
  rw [acc_eq_dependency hg hs hD hu] at h1
  rw [add_left_cancel h1, sum_list_countQ _ _ c.g.length fun x hx => hg u x hx]
  apply Finset.sum_congr rfl
  intro w _
  unfold part
  by_cases hw : D w = some (k + 1)
  · rw [if_pos hw, if_pos hw, acc_eq_dependency hg hs hD hw, hdv]
    simp only [quotQ, mult]; ring
  · rw [if_neg hw, if_neg hw, mul_zero]

/-- The team, when the thread of every source adds what it should. -/
theorem team_gives_of {c : Args α} {σ : Type} {T : σ → Res ((σ × Option AddEv) ⊕ Unit) → Prop} (start : Nat → σ) (sources : List Nat) (D : Nat → Nat → Option Nat) (Δ : Nat → Nat → ℚ)
    (h : ∀ s ∈ sources, Sure (Logged T) (Adds c (D s) (Δ s)) (start s, [])) :
    Sure (Team T) (Vec c.g.length fun v => (sources.map fun s => if (D s v).isSome then Δ s v else 0).sum)
      (sources.map fun s => some (start s), List.replicate c.g.length 0) := by
  have := team_sure (T := T) (n := c.g.length) (b0 := fun _ => 0) (Qs := sources.map fun s => Adds c (D s) (Δ s)) ?_
    (sources.map fun s => (some (start s), [])) (by simp) ?_ (List.replicate c.g.length 0) (by simp) ?_
  · rw [List.map_map] at this
    refine this.mono ?_
    rintro r ⟨logs, h1, h2, h3, h4⟩
    refine ⟨h3, fun v hv => ?_⟩
    rw [h4 v hv, zero_add]
    congr 2
    apply List.ext_getElem?
    intro i
    rw [List.getElem?_map, List.getElem?_map]
    simp only [List.length_map] at h1
    rcases Nat.lt_or_ge i sources.length with hi | hi
    · rw [List.getElem?_eq_getElem (by omega), List.getElem?_eq_getElem hi]
      have := h2 i _ _ (List.getElem?_eq_getElem (by omega)) (by rw [List.getElem?_map, List.getElem?_eq_getElem hi]; rfl)
      simp only [Option.map_some]
      rw [this.2 v]
    · rw [List.getElem?_eq_none (by omega), List.getElem?_eq_none hi]; rfl
  · intro Q hQ log hlog e he
    obtain ⟨s, -, rfl⟩ := List.mem_map.1 hQ
    exact hlog.1 e he
  · intro i x Q hx hQ
    rw [List.getElem?_map] at hx hQ
    cases hsi : sources[i]? with
    | none => rw [hsi] at hx; cases hx
    | some s =>
      rw [hsi] at hx hQ; cases hx; cases hQ
      exact h s (List.mem_of_getElem? hsi)
  · intro v hv
    rw [List.getElem?_replicate, if_pos hv, List.map_map]
    have : (fun x : Option σ × List AddEv => logSum x.2 v) ∘ (fun s => (some (start s), [])) = fun _ => 0 := by
      funext s; simp [logSum]
    rw [this]; simp

/-- The team, for any solution of the recursion. -/
theorem team_gives {c : Args α} (hg : InRange c.g) (hb : 0 < c.bins) (hinf : c.g.length < c.inf) (sources : List Nat) (hs : ∀ s ∈ sources, s < c.g.length)
    (D : Nat → Nat → Option Nat) (hD : ∀ s v d, D s v = some d ↔ IsDist c.g s v d) (hfit : ∀ s ∈ sources, ∀ v d, D s v = some d → nw c.g d s v < c.M)
    (Δ : Nat → Nat → ℚ) (hΔ : ∀ s ∈ sources, Rec c s (D s) (Δ s)) :
    Sure (Team (TStep c)) (Vec c.g.length fun v => (sources.map fun s => if (D s v).isSome then Δ s v else 0).sum)
      (sources.map fun s => some (Th.start s), List.replicate c.g.length 0) :=
  team_gives_of Th.start sources D Δ fun s hm => thread_sure hg (hs s hm) (hD s) hb hinf (hfit s hm) (hΔ s hm)

open Classical in
/-- The number of other vertices that can be reached from `v`. -/
noncomputable def reached (g : Rows α) (v : Nat) : Nat := ((List.range g.length).filter fun t => t ≠ v ∧ Reachable g v t).length

theorem dependency_self {g : Rows α} (hg : InRange g) {v : Nat} (hv : v < g.length) : dependency g v v = reached g v := by
  classical
  unfold dependency reached
  have key : ∀ l : List Nat, ((l.filter fun t => t ≠ v).map fun t => throughFraction g v t v).sum = ((l.filter fun t => t ≠ v ∧ Reachable g v t).length : ℚ) := by
    intro l
    induction l with
    | nil => simp
    | cons a l ih =>
      by_cases ha : a = v
      · subst ha
        rw [List.filter_cons_of_neg (by simp), List.filter_cons_of_neg (by simp)]; exact ih
      · rw [List.filter_cons_of_pos (by simpa using ha), List.map_cons, List.sum_cons, ih, throughFraction_eq hg hv (distD_iff g v)]
        have h0 : distD g v v = some 0 := (distD_iff g v v 0).2 (.zero _ _)
        by_cases hr : Reachable g v a
        · obtain ⟨d, hd⟩ := hr.exists_dist
          have h1 : distD g v a = some d := (distD_iff g v a d).2 hd
          rw [List.filter_cons_of_pos (by simpa using ⟨ha, hr⟩), term, h0, h1]
          simp only [Nat.zero_le, if_true, Nat.sub_zero, nw_zero, Nat.cast_one, one_mul, List.length_cons, Nat.cast_add]
          rw [div_self (nw_dist_ne hg hd)]; ring
        · have h1 : distD g v a = none := by
            cases h : distD g v a with
            | none => rfl
            | some d => exact absurd ⟨d, ((distD_iff g v a d).1 h).1⟩ hr
          rw [List.filter_cons_of_neg (by simpa using fun _ => hr), term, h0, h1]; simp
  exact key _

/-- The scores computed: the betweenness of `v` plus, for every time that `v` itself is a source, the number of other vertices it reaches. -/
noncomputable def parScore (g : Rows α) (sources : List Nat) (v : Nat) : ℚ := betweenness g sources v + (sources.count v : ℚ) * (reached g v : ℚ)

theorem sum_dependency {g : Rows α} (hg : InRange g) {v : Nat} (hv : v < g.length) (sources : List Nat) :
    (sources.map fun s => dependency g s v).sum = parScore g sources v := by
  induction sources with
  | nil => simp [parScore, betweenness]
  | cons s l ih =>
    rw [List.map_cons, List.sum_cons, ih]
    unfold parScore betweenness
    by_cases e : s = v
    · subst e
      rw [List.filter_cons_of_neg (by simp), List.count_cons_self, dependency_self hg hv]
      push_cast; ring
    · rw [List.filter_cons_of_pos (by simpa using e), List.map_cons, List.sum_cons, List.count_cons_of_ne e]
      ring

/-- With the dependencies, the sums are the scores. -/
theorem sum_of_dependencies {g : Rows α} (hg : InRange g) (sources : List Nat) (hs : ∀ s ∈ sources, s < g.length) {v : Nat} (hv : v < g.length) :
    (sources.map fun s => if (distD g s v).isSome then dependency g s v else 0).sum = parScore g sources v := by
  rw [← sum_dependency hg hv]
  congr 1
  apply List.map_congr_left
  intro s hm
  cases hd : distD g s v with
  | none => rw [dependency_unreachable hg (hs s hm) (distD_iff g s) hd]; rfl
  | some d => rfl

/-- The numbers of walks of the length of the distance fit. -/
theorem fit_nw {g : Rows α} (hg : InRange g) {M s : Nat} (hs : s < g.length) (hfit : ∀ t < g.length, (shortestPaths g s t).length < M) (v d : Nat) (hd : distD g s v = some d) :
    nw g d s v < M := by
  have hd' := (distD_iff g s v d).1 hd
  rw [Brandes.nw_eq_length hg hs hd']
  exact hfit v (hd'.1.lt hg hs)

/-- C41 (what holds).  Missing: that the scores are those of the sequential routine.
For every schedule, every list of sources and every number of bins, with a counting type that divides exactly and holds the numbers of shortest paths, the routine ends, never accesses
an array out of bounds, and returns for every vertex `v` its betweenness with respect to the sources, plus the number of other vertices reached from `v` for each occurrence of `v` in `sources`. -/
theorem brandes_bc_parallel_partial (c : Args α) (hdv : c.dv = .exact) (hg : InRange c.g) (hn : 0 < c.g.length) (hb : 0 < c.bins) (hinf : c.g.length < c.inf) (sources : List Nat)
    (hs : ∀ s ∈ sources, s < c.g.length) (hfit : ∀ s ∈ sources, ∀ t < c.g.length, (shortestPaths c.g s t).length < c.M) :
    ∃ x, launch c sources = .ok x ∧ Sure (Team (TStep c)) (· = (List.range c.g.length).map (parScore c.g sources)) x := by
  refine ⟨_, by unfold launch; rw [vget_of_lt hn, res_bind_ok]; rfl, ?_⟩
  refine (team_gives hg hb hinf sources hs (fun s => distD c.g s) (fun s => distD_iff c.g s) ?_ (fun s => dependency c.g s) ?_).mono ?_
  · exact fun s hm => fit_nw hg (hs s hm) (hfit s hm)
  · exact fun s hm => rec_exact hg (hs s hm) (distD_iff c.g s) hdv
  · exact fun r hr => (hr.congr fun v hv => sum_of_dependencies hg sources hs hv).eq_map

/-- The scores of vertices that are not sources are exact. -/
theorem parScore_of_not_source {g : Rows α} {sources : List Nat} {v : Nat} (h : v ∉ sources) : parScore g sources v = betweenness g sources v := by
  rw [parScore, List.count_eq_zero_of_not_mem h]; simp

theorem reached_pos {g : Rows α} (hg : InRange g) {v w : Nat} (he : Edge g v w) (hne : w ≠ v) : 0 < reached g v := by
  classical
  unfold reached
  rw [List.length_pos_iff]
  intro e
  have : w ∈ (List.range g.length).filter fun t => t ≠ v ∧ Reachable g v t := by
    rw [List.mem_filter]
    exact ⟨List.mem_range.2 (hg v w he), by simpa using ⟨hne, 1, .snoc .nil he⟩⟩
  rw [e] at this; simp at this

/-- C41 fails: a source with an edge to another vertex gets a score that is too large, in every execution. -/
theorem brandes_bc_parallel_source_wrong (c : Args α) (hdv : c.dv = .exact) (hg : InRange c.g) (hb : 0 < c.bins) (hinf : c.g.length < c.inf) (sources : List Nat)
    (hs : ∀ s ∈ sources, s < c.g.length) (hfit : ∀ s ∈ sources, ∀ t < c.g.length, (shortestPaths c.g s t).length < c.M) {v w : Nat} (hv : v ∈ sources) (he : Edge c.g v w)
    (hne : w ≠ v) : ∃ x, launch c sources = .ok x ∧ Sure (Team (TStep c)) (fun bc => ∃ y, bc[v]? = some y ∧ betweenness c.g sources v < y) x := by
  obtain ⟨x, h1, h2⟩ := brandes_bc_parallel_partial c hdv hg (Nat.lt_of_le_of_lt (Nat.zero_le _) (hs v hv)) hb hinf sources hs hfit
  refine ⟨x, h1, h2.mono ?_⟩
  rintro _ rfl
  refine ⟨parScore c.g sources v, by rw [List.getElem?_map, List.getElem?_range (hs v hv)]; rfl, ?_⟩
  have h3 : 0 < sources.count v := List.count_pos_iff.2 hv
  have h4 : 0 < reached c.g v := reached_pos hg he hne
  have h5 : (0 : ℚ) < (sources.count v : ℚ) * (reached c.g v : ℚ) := mul_pos (by exact_mod_cast h3) (by exact_mod_cast h4)
  unfold parScore
  linarith

/-- Reading `graph[0]` of the empty graph is out of bounds. -/
theorem brandes_bc_parallel_empty (c : Args α) (hg : c.g = []) (sources : List Nat) : launch c sources = .error .outOfBounds := by
  unfold launch
  rw [hg, vget_of_ge (by simp)]
  rfl

/-- Normalisation divides by the largest score; if all scores are zero every entry is "not a number". -/
theorem finish_normalised (bc : List ℚ) :
    (∀ b ∈ bc, 0 < b → (∀ y ∈ bc, y ≤ b) → finish true bc = bc.map fun y => some (y / b)) ∧ ((∀ y ∈ bc, y = 0) → finish true bc = List.replicate bc.length none) := by
  obtain ⟨h1, h2⟩ := Brandes.foldl_max 0 bc
  constructor
  · intro b hb hpos hmax
    have : maxScore bc = b := by
      unfold maxScore
      have h3 := h2 b (by simp [hb])
      rcases List.mem_cons.1 h1 with e | e
      · rw [e] at h3; linarith
      · have := hmax _ e; exact le_antisymm this h3
    simp only [finish, if_true, this, if_neg hpos.ne']
  · intro h0
    have : maxScore bc = 0 := by
      unfold maxScore
      rcases List.mem_cons.1 h1 with e | e
      · exact e
      · exact h0 _ e
    simp only [finish, if_true, this]
    rw [List.eq_replicate_iff]
    simp

/-! ## Integral path counts -/

/-- 0 → 1, 0 → 2, 1 → 3, 2 → 3: vertex 1 lies on half of the shortest paths from 0 to 3. -/
def exD : Rows Unit := [[(1, ()), (2, ())], [(3, ())], [(3, ())], []]

def dD (v : Nat) : Option Nat := [some 0, some 1, some 1, some 2].getD v none

theorem dD_iff : ∀ v d, dD v = some d ↔ IsDist exD 0 v d := by
  have hg : InRange exD := by decide
  have mk : ∀ v d, (decide (0 < nw exD d 0 v) && (List.range d).all fun k => decide (nw exD k 0 v = 0)) = true → IsDist exD 0 v d := by
    intro v d h
    rw [Bool.and_eq_true, List.all_eq_true] at h
    refine ⟨(nw_pos hg).1 (by simpa using h.1), fun k hk => ?_⟩
    by_contra hlt
    have h1 := (nw_pos hg).2 hk
    have h2 := h.2 k (List.mem_range.2 (by omega))
    simp at h2; omega
  have h0 : IsDist exD 0 0 0 := mk 0 0 (by decide +kernel)
  have h1 : IsDist exD 0 1 1 := mk 1 1 (by decide +kernel)
  have h2 : IsDist exD 0 2 1 := mk 2 1 (by decide +kernel)
  have h3 : IsDist exD 0 3 2 := mk 3 2 (by decide +kernel)
  intro v d
  match v with
  | 0 => exact ⟨fun h => by cases h; exact h0, fun h => by rw [h.unique h0]; rfl⟩
  | 1 => exact ⟨fun h => by cases h; exact h1, fun h => by rw [h.unique h1]; rfl⟩
  | 2 => exact ⟨fun h => by cases h; exact h2, fun h => by rw [h.unique h2]; rfl⟩
  | 3 => exact ⟨fun h => by cases h; exact h3, fun h => by rw [h.unique h3]; rfl⟩
  | v + 4 =>
    constructor
    · intro h; simp [dD] at h
    · intro h
      have := h.1.lt hg (by decide)
      simp [exD] at this

/-- C41 fails when the path counts are integers: every execution gives vertex 1 the score 0; its betweenness is 1/2. -/
theorem brandes_bc_parallel_integral_wrong : ∃ x, launch { g := exD, bins := 4, inf := 2 ^ 32 - 1, M := 2 ^ 64, dv := .integral } [0] = .ok x ∧
    Sure (Team (TStep { g := exD, bins := 4, inf := 2 ^ 32 - 1, M := 2 ^ 64, dv := .integral })) (fun bc => bc[1]? = some 0) x ∧ betweenness exD [0] 1 = 1 / 2 := by
  refine ⟨_, rfl, ?_, by decide +kernel⟩
  have hall : ∀ s, s ∈ [0] → s = 0 := by simp
  have key := team_gives (c := { g := exD, bins := 4, inf := 2 ^ 32 - 1, M := 2 ^ 64, dv := .integral }) (by decide) (by decide) (by decide) [0]
    (by intro s hs; rw [hall s hs]; decide) (fun s => if s = 0 then dD else distD exD s)
    (by
      intro s v d
      dsimp only
      split
      · rename_i e; subst e; exact dD_iff v d
      · exact distD_iff exD s v d)
    (by
      intro s hs v d hd
      have := hall s hs; subst this
      simp only [if_true] at hd
      have := (dD_iff v d).1 hd
      have hv := this.1.lt (g := exD) (by decide) (by decide)
      match v with
      | 0 => cases hd; decide +kernel
      | 1 => cases hd; decide +kernel
      | 2 => cases hd; decide +kernel
      | 3 => cases hd; decide +kernel
      | v + 4 => simp [exD] at hv)
    (fun _ v => if v = 0 then 2 else 0)
    (by
      intro s hs u k hu
      have := hall s hs; subst this
      simp only [if_true] at hu
      have := (dD_iff u k).1 hu
      have hv := this.1.lt (g := exD) (by decide) (by decide)
      match u with
      | 0 => cases hu; decide +kernel
      | 1 => cases hu; decide +kernel
      | 2 => cases hu; decide +kernel
      | 3 => cases hu; decide +kernel
      | v + 4 => simp [exD] at hv)
  refine key.mono fun r hr => ?_
  rw [hr.2 1 (by decide)]
  simp

/-! ## Example: the square with a tail, sources 0 and 3 -/

def exArgs : Args Unit := { g := Brandes.exG, bins := 4, inf := 2 ^ 32 - 1, M := 2 ^ 64, dv := .exact }

example : ∃ x, launch exArgs [0, 3] = .ok x ∧ Sure (Team (TStep exArgs)) (fun bc => bc[1]? = some 1 ∧ ∃ y, bc[0]? = some y ∧ 0 < y) x := by
  have hs : ∀ s ∈ [0, 3], s < exArgs.g.length := by decide
  obtain ⟨x, h1, h2⟩ := brandes_bc_parallel_partial exArgs rfl Brandes.exG_inRange (by decide) (by decide) (by decide) [0, 3] hs
    (fun s hs' t ht => Brandes.exG_fit s (hs s hs') t ht)
  refine ⟨x, h1, h2.mono ?_⟩
  rintro _ rfl
  have e1 : parScore exArgs.g [0, 3] 1 = 1 := by
    rw [parScore_of_not_source (by decide)]; decide +kernel
  have e0 : parScore exArgs.g [0, 3] 0 = reached exArgs.g 0 := by
    have : betweenness exArgs.g [0, 3] 0 = 0 := by decide +kernel
    rw [parScore, this]; simp
  refine ⟨?_, (reached exArgs.g 0 : ℚ), ?_, ?_⟩
  · rw [List.getElem?_map, List.getElem?_range (by decide), Option.map_some, e1]
  · rw [List.getElem?_map, List.getElem?_range (by decide), Option.map_some, e0]
  · have : dependency exArgs.g 0 0 = 4 := by decide +kernel
    rw [← dependency_self (g := exArgs.g) (v := 0) Brandes.exG_inRange (by decide), this]; decide

end NW.BrandesPar
