import Verif.Lemmas.BcRace
import Verif.Lemmas.BcRaceRun
import Verif.Props.BcExpPar

/-!
# C97: the parallel experimental betweenness routine `bc2_v2`

The routine treats the edges of a level in parallel and raises the path count of the target by a plain load, addition and store.  If every vertex has at most one shortest path from
each source, no two tasks raise the same count, and every schedule returns the exact scores.  Otherwise an addition can be lost, and scores come out wrong.
-/

namespace NW.BcRace
open Spec
open NW.Brandes (Vec)
open NW.BrandesPar (distD distD_iff rec_exact team_gives_of exD)
open NW.BcExp (Result exact betweenness_eq)

variable {α : Type}

/-- Every state has a step. -/
theorem VStep.total (c : Args α) (s : Th) : ∃ o, VStep c s o := by
  cases s with
  | start root => exact ⟨_, .start⟩
  | fwd ts m phase depth =>
    by_cases hall : ∀ t ∈ ts, t.pc = .done
    · exact ⟨_, .fJoin hall⟩
    · push Not at hall
      obtain ⟨t, ht, hf⟩ := hall
      obtain ⟨i, hi⟩ := List.getElem?_of_mem ht
      exact ⟨_, .fStep hi hf⟩
  | back ts deltas m phase =>
    by_cases hall : ∀ t ∈ ts, t.done = true
    · exact ⟨_, .bJoin hall⟩
    · push Not at hall
      obtain ⟨t, ht, hf⟩ := hall
      obtain ⟨i, hi⟩ := List.getElem?_of_mem ht
      exact ⟨_, .bStep hi (by simpa using hf)⟩

theorem sum_others {g : Rows α} (hg : InRange g) (sources : List Nat) (hs : ∀ s ∈ sources, s < g.length) (v : Nat) :
    (sources.map fun s => if (others s (distD g s) v).isSome then dependency g s v else 0).sum = betweenness g sources v := by
  rw [betweenness_eq]
  congr 1
  apply List.map_congr_left
  intro s hm
  unfold others
  by_cases e : v = s
  · simp [e]
  · rw [if_neg e, if_pos e]
    cases hd : distD g s v with
    | none => rw [dependency_unreachable hg (hs s hm) (distD_iff g s) hd]; rfl
    | some d => rfl

/-- C97 (what holds).  Missing: graphs in which some vertex has several shortest paths from a source.
If no vertex has more than one shortest path from a source, the routine ends under every schedule, never accesses an array out of bounds, and returns the betweenness of every vertex with respect to
the sources, divided by the largest one if asked to. -/
theorem bc2_v2_partial (c : Args α) (hg : InRange c.g) (hn : 0 < c.g.length) (hinf : c.g.length < c.inf) (hM : 1 < c.M) (sources : List Nat) (hs : ∀ s ∈ sources, s < c.g.length)
    (hone : ∀ s ∈ sources, ∀ t < c.g.length, (shortestPaths c.g s t).length ≤ 1) (norm : Bool) :
    Sure (Serial (VStep c) (finish norm)) (Result (exact c.g sources) norm) (launch c sources) := by
  have h : ∀ s ∈ sources, Sure (Logged (VStep c)) (Adds c s (distD c.g s) (dependency c.g s)) (.start s, []) := fun s hm =>
    thread_sure hg (hs s hm) (distD_iff c.g s) hinf hM
      (fun v d hd => Nat.lt_succ_iff.1 (BrandesPar.fit_nw hg (M := 2) (hs s hm) (fun t ht => Nat.lt_succ_iff.2 (hone s hm t ht)) v d hd))
      (rec_exact (c := { g := c.g, bins := 1, inf := c.inf, M := c.M, dv := .exact }) hg (hs s hm) (distD_iff c.g s) rfl)
  have e : ((List.range c.g.length).map fun v => (sources.map fun s => if (others s (distD c.g s) v).isSome then dependency c.g s v else 0).sum) = exact c.g sources :=
    List.map_congr_left fun v _ => sum_others hg sources hs v
  have h1 := team_gives_of (c := { g := c.g, bins := 1, inf := c.inf, M := c.M, dv := .exact }) Th.start sources (fun s => others s (distD c.g s)) (fun s => dependency c.g s) h
  refine Serial.sure_of_team (VStep.total c) ?_ h1 ⟨0, by simp [launch]⟩
  intro b hb
  rw [← e, ← hb.eq_map]
  exact BcExpPar.finish_ok norm (by rw [hb.1]; exact hn)

/-- The square with the source 0. -/
def race : Args Unit := { g := exD, inf := 2 ^ 32 - 1, M := 2 ^ 64 }

/-- A schedule of `race` in which the two tasks that raise the count of vertex 3 read it before either of them writes. -/
def raceSchedule : List Nat :=
  [0] ++ List.replicate 9 0 ++ List.replicate 9 1 ++ [0] ++ (List.replicate 7 0 ++ List.replicate 4 1 ++ [0, 1, 0, 1]) ++ [0] ++ [0] ++ [0, 0, 0] ++ [0] ++ [0, 0, 1, 1] ++ [0]

/-- C97 fails: on the square there is a run that ends without a fault and gives the vertices 1 and 2 the score 1 each, although two shortest paths lead from 0 to 3 and the betweenness of
both is 1/2. -/
theorem bc2_v2_race :
    Runs (Serial (VStep race) (finish false)) (launch race [0]) (.ok [some 0, some 1, some 1, some 0]) ∧ exact race.g [0] = [0, 1 / 2, 1 / 2, 0] := by
  constructor
  · exact follow_sound (r := [0, 1, 1, 0]) (is := raceSchedule) (by decide +kernel) (by rfl)
  · decide +kernel

/-- Other schedules of the same program on the same graph return the exact scores: the result depends on the schedule. -/
theorem bc2_v2_race_ok :
    Runs (Serial (VStep race) (finish false)) (launch race [0]) (.ok [some 0, some (1 / 2), some (1 / 2), some 0]) :=
  follow_sound (r := [0, 1 / 2, 1 / 2, 0])
    (is := [0] ++ List.replicate 9 0 ++ List.replicate 9 1 ++ [0] ++ (List.replicate 9 0 ++ List.replicate 6 1) ++ [0] ++ [0] ++ [0, 0, 0] ++ [0] ++ [0, 0, 1, 1] ++ [0]) (by decide +kernel) (by rfl)

/-- With normalisation, on a graph without vertices every run dereferences the end of an empty array. -/
theorem bc2_v2_empty (c : Args α) (hg : c.g = []) {o : Res (List (Option ℚ))} (h : Runs (Serial (VStep c) (finish true)) (launch c []) o) : o = .error .emptyContainer := by
  have key : ∀ o', Serial (VStep c) (finish true) (launch c []) o' → o' = .error .emptyContainer := by
    intro o' h'
    unfold launch at h'
    rw [hg] at h'
    cases h'
    rfl
  cases h with
  | done h => cases key _ h
  | fault h => cases key _ h; rfl
  | step h _ => cases key _ h

/-! ## Example: a tree with a branch -/

def exTree : Rows Unit := [[(1, ()), (2, ())], [(3, ()), (4, ())], [], [], []]

example : Sure (Serial (VStep { g := exTree, inf := 2 ^ 32 - 1, M := 2 ^ 64 }) (finish false)) (· = [some 0, some 2, some 0, some 0, some 0]) (launch { g := exTree, inf := 2 ^ 32 - 1, M := 2 ^ 64 } [0]) := by
  refine (bc2_v2_partial { g := exTree, inf := 2 ^ 32 - 1, M := 2 ^ 64 } (by decide) (by decide) (by decide) (by decide) [0] (by decide) (by decide +kernel) false).mono ?_
  intro r hr
  unfold Result at hr
  rw [if_neg (by simp)] at hr
  rw [hr]
  have : exact exTree [0] = [0, 2, 0, 0, 0] := by decide +kernel
  rw [this]; rfl

end NW.BcRace
