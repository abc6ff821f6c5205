import Verif.Lemmas.BcExpPar
import Verif.Props.BrandesPar
import Verif.Props.BcExp

/-!
# C96: the parallel experimental betweenness routines `bc2_v3` and `bc2_v4`

Whatever the scheduling, the routines end without a fault; like `bc2_v0` and the parallel routine of the library they count a source on the paths that start at it.
With an integral counting type `bc2_v4` also rounds the quotients down; `bc2_v3` divides in floating point.
-/

namespace NW.BcExpPar
open Spec
open NW.Brandes (Vec)
open NW.BrandesPar (Args parScore distD distD_iff rec_exact team_gives_of sum_of_dependencies fit_nw reached reached_pos Rec dD dD_iff exD)
open NW.BcExp (Fits Result)

variable {α : Type}

/-- Every state has a step. -/
theorem XStep.total (c : Args α) (s : Th) : ∃ o, XStep c s o := by
  cases s with
  | start root => exact ⟨_, .start⟩
  | fwd ts q1 q2 retired m lvl =>
    by_cases hall : ∀ t ∈ ts, t.finished
    · exact ⟨_, .fJoin hall⟩
    · push Not at hall
      obtain ⟨t, ht, hf⟩ := hall
      obtain ⟨i, hi⟩ := List.getElem?_of_mem ht
      exact ⟨_, .fStep hi hf⟩
  | back todo ts deltas m =>
    by_cases hall : ∀ t ∈ ts, t.pc = .done
    · exact ⟨_, .bJoin hall⟩
    · push Not at hall
      obtain ⟨t, ht, hf⟩ := hall
      obtain ⟨i, hi⟩ := List.getElem?_of_mem ht
      exact ⟨_, .bStep hi hf⟩

theorem finish_ok (norm : Bool) {bc : List ℚ} (h : 0 < bc.length) : ∃ r, finish norm bc = .ok r ∧ Result bc norm r := by
  cases norm with
  | true => exact BcExp.normalise_gives h
  | false => exact ⟨_, rfl, by simp [Result]⟩

/-- The program, when the run of every source adds what it should. -/
theorem serial_gives {c : Args α} (hn : 0 < c.g.length) (norm : Bool) (sources : List Nat) (D : Nat → Nat → Option Nat) (Δ : Nat → Nat → ℚ)
    (h : ∀ s ∈ sources, Sure (Logged (XStep c)) (BrandesPar.Adds c (D s) (Δ s)) (.start s, [])) :
    ∃ x, launch c sources = .ok x ∧
      Sure (Serial (XStep c) (finish norm)) (Result ((List.range c.g.length).map fun v => (sources.map fun s => if (D s v).isSome then Δ s v else 0).sum) norm) x := by
  refine ⟨_, by unfold launch; rw [vget_of_lt hn, res_bind_ok]; rfl, ?_⟩
  refine Serial.sure_of_team (XStep.total c) ?_ (team_gives_of Th.start sources D Δ h) ⟨0, by simp⟩
  intro b hb
  rw [← hb.eq_map]
  exact finish_ok norm (by rw [hb.1]; exact hn)

/-- C96 (what holds).  Missing: that the scores of the sources are their betweenness.
For every schedule, every list of sources and every number of bins, with exact division (always in `bc2_v3`; in `bc2_v4` with a floating-point counting type) and a counting type that holds the
numbers of shortest paths, the routine ends, never accesses an array out of bounds, and gives every vertex `v` its betweenness with respect to the sources, plus the number of other vertices reached
from `v` for each occurrence of `v` in `sources`. -/
theorem bc2_v3_v4_partial (c : Args α) (hdv : c.dv = .exact) (hg : InRange c.g) (hn : 0 < c.g.length) (hb : 0 < c.bins) (hinf : c.g.length < c.inf) (sources : List Nat)
    (hs : ∀ s ∈ sources, s < c.g.length) (hfit : Fits c.M c.g sources) (norm : Bool) :
    ∃ x, launch c sources = .ok x ∧ Sure (Serial (XStep c) (finish norm)) (Result ((List.range c.g.length).map (parScore c.g sources)) norm) x := by
  obtain ⟨x, h1, h2⟩ := serial_gives hn norm sources (fun s => distD c.g s) (fun s => dependency c.g s) fun s hm =>
    thread_sure hg (hs s hm) (distD_iff c.g s) hb hinf (fit_nw hg (hs s hm) (hfit s hm)) (rec_exact hg (hs s hm) (distD_iff c.g s) hdv)
  refine ⟨x, h1, ?_⟩
  have e : ((List.range c.g.length).map fun v => (sources.map fun s => if (distD c.g s v).isSome then dependency c.g s v else 0).sum) = (List.range c.g.length).map (parScore c.g sources) :=
    List.map_congr_left fun v hv => sum_of_dependencies hg sources hs (List.mem_range.1 hv)
  rwa [e] at h2

/-- C96 fails: without normalisation, a source with an edge to another vertex gets a score that is too large, in every execution. -/
theorem bc2_v3_v4_source_wrong (c : Args α) (hdv : c.dv = .exact) (hg : InRange c.g) (hb : 0 < c.bins) (hinf : c.g.length < c.inf) (sources : List Nat)
    (hs : ∀ s ∈ sources, s < c.g.length) (hfit : Fits c.M c.g sources) {v w : Nat} (hv : v ∈ sources) (he : Edge c.g v w) (hne : w ≠ v) :
    ∃ x, launch c sources = .ok x ∧ Sure (Serial (XStep c) (finish false)) (fun bc => ∃ y, bc[v]? = some (some y) ∧ betweenness c.g sources v < y) x := by
  obtain ⟨x, h1, h2⟩ := bc2_v3_v4_partial c hdv hg (Nat.lt_of_le_of_lt (Nat.zero_le _) (hs v hv)) hb hinf sources hs hfit false
  refine ⟨x, h1, h2.mono ?_⟩
  intro r hr
  unfold Result at hr
  rw [if_neg (by simp)] at hr
  refine ⟨parScore c.g sources v, by rw [hr, List.getElem?_map, List.getElem?_map, List.getElem?_range (hs v hv)]; rfl, ?_⟩
  have h3 : 0 < sources.count v := List.count_pos_iff.2 hv
  have h4 : 0 < reached c.g v := reached_pos hg he hne
  have h5 : (0 : ℚ) < (sources.count v : ℚ) * (reached c.g v : ℚ) := mul_pos (by exact_mod_cast h3) (by exact_mod_cast h4)
  unfold parScore
  linarith

/-- C96 fails for `bc2_v4` when the path counts are integers: every execution gives vertex 1 of the square the score 0; its betweenness is 1/2. -/
theorem bc2_v4_integral_wrong : ∃ x, launch { g := exD, bins := 4, inf := 2 ^ 32 - 1, M := 2 ^ 64, dv := .integral } [0] = .ok x ∧
    Sure (Serial (XStep { g := exD, bins := 4, inf := 2 ^ 32 - 1, M := 2 ^ 64, dv := .integral }) (finish false)) (fun bc => bc[1]? = some (some 0)) x ∧
    betweenness exD [0] 1 = 1 / 2 := by
  have hfit : ∀ v d, dD v = some d → nw exD d 0 v < 2 ^ 64 := by
    intro v d hd
    have hv := ((dD_iff v d).1 hd).1.lt (g := exD) (by decide) (by decide)
    match v with
    | 0 => cases hd; decide +kernel
    | 1 => cases hd; decide +kernel
    | 2 => cases hd; decide +kernel
    | 3 => cases hd; decide +kernel
    | v + 4 => simp [exD] at hv
  have hrec : Rec { g := exD, bins := 4, inf := 2 ^ 32 - 1, M := 2 ^ 64, dv := .integral } 0 dD (fun v => if v = 0 then 2 else 0) := by
    intro u k hu
    have hv := ((dD_iff u k).1 hu).1.lt (g := exD) (by decide) (by decide)
    match u with
    | 0 => cases hu; decide +kernel
    | 1 => cases hu; decide +kernel
    | 2 => cases hu; decide +kernel
    | 3 => cases hu; decide +kernel
    | v + 4 => simp [exD] at hv
  obtain ⟨x, h1, h2⟩ := serial_gives (c := { g := exD, bins := 4, inf := 2 ^ 32 - 1, M := 2 ^ 64, dv := .integral }) (by decide) false [0] (fun _ => dD)
    (fun _ v => if v = 0 then 2 else 0) (by
      intro s hs
      obtain rfl : s = 0 := by simpa using hs
      exact thread_sure (by decide) (by decide) dD_iff (by decide) (by decide) hfit hrec)
  refine ⟨x, h1, h2.mono ?_, by decide +kernel⟩
  intro r hr
  unfold Result at hr
  rw [if_neg (by simp)] at hr
  rw [hr, List.getElem?_map, List.getElem?_map, List.getElem?_range (by decide)]
  simp

/-- Both routines read the first row before anything else. -/
theorem bc2_v3_v4_empty (c : Args α) (hg : c.g = []) (sources : List Nat) : launch c sources = .error .outOfBounds := by
  unfold launch
  rw [hg, vget_of_ge (by simp)]
  rfl

/-! ## Example: the square with a tail, sources 0 and 3 -/

example : ∃ x, launch BrandesPar.exArgs [0, 3] = .ok x ∧
    Sure (Serial (XStep BrandesPar.exArgs) (finish false)) (fun bc => bc[1]? = some (some 1)) x := by
  have hs : ∀ s ∈ [0, 3], s < BrandesPar.exArgs.g.length := by decide
  obtain ⟨x, h1, h2⟩ := bc2_v3_v4_partial BrandesPar.exArgs rfl Brandes.exG_inRange (by decide) (by decide) (by decide) [0, 3] hs
    (fun s hs' t ht => Brandes.exG_fit s (hs s hs') t ht) false
  refine ⟨x, h1, h2.mono ?_⟩
  intro r hr
  unfold Result at hr
  rw [if_neg (by simp)] at hr
  have e1 : parScore BrandesPar.exArgs.g [0, 3] 1 = 1 := by
    rw [BrandesPar.parScore_of_not_source (by decide)]; decide +kernel
  rw [hr, List.getElem?_map, List.getElem?_map, List.getElem?_range (by decide), Option.map_some, Option.map_some, e1]

/-- The hypotheses of `bc2_v3_v4_source_wrong` hold for it. -/
example : ∃ x, launch BrandesPar.exArgs [0, 3] = .ok x ∧ Sure (Serial (XStep BrandesPar.exArgs) (finish false))
    (fun bc => ∃ y, bc[0]? = some (some y) ∧ betweenness BrandesPar.exArgs.g [0, 3] 0 < y) x :=
  bc2_v3_v4_source_wrong BrandesPar.exArgs rfl Brandes.exG_inRange (by decide) (by decide) [0, 3] (by decide)
    (fun s hs' t ht => Brandes.exG_fit s (by revert s; decide) t ht) (v := 0) (w := 1) (by decide) (by decide) (by decide)

end NW.BcExpPar
