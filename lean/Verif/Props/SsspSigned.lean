import Verif.Model.SsspSigned
import Verif.Props.ApbDijkstra
import Verif.Lemmas.SsspSigned
import Verif.Props.Bfs
import Mathlib.Tactic.Ring

/-! # Property C145: shortest paths with weights of any sign -/

namespace NW.SsspSigned
open Spec ApbDijkstra

variable {g : Rows Int} {wt : Nat × Int → Int} {s : Nat} {W inf : Int}

/-- C145 for `dijkstra`: with weights of any sign, if no negative cycle can be reached from the source, it ends, whatever the queue hands out, and returns the least weights. -/
theorem dijkstra_signed (hu : Usable g wt s W inf) (hn : ¬ NegativeCycle g wt s) : Run.Gives (dijkstra g wt inf s) (SDistances g wt s inf) := by
  unfold dijkstra
  refine Run.Gives.bind (Run.gives_lift (a := ()) (Q := fun _ => True) (by simp [check, hu.sourceLt]) trivial) ?_
  rintro _ -
  refine Run.Gives.bind (Run.gives_lift (vset_of_lt (by simpa using hu.sourceLt)) rfl) ?_
  rintro _ rfl
  refine Run.Gives.bind (Run.gives_lift (a := 0) (by rw [vget_of_lt (by simpa using hu.sourceLt)]; simp) rfl) ?_
  rintro _ rfl
  have hsure := loop_sure hu hn (init_inv hu)
  refine Run.Gives.bind (Q := fun st => SDistances g wt s inf st.1) ⟨hsure.exists_run.elim fun r hr => ⟨_, hr.1⟩, fun o ho => ?_⟩ ?_
  · obtain ⟨r, h1, h2⟩ := hsure.outcome ho
    exact ⟨r, h1, h2.1⟩
  · intro st hst
    exact Run.gives_pure hst

/-- C145 for `dijkstra`: if a negative cycle can be reached it never returns. -/
theorem dijkstra_signed_endless (hu : Usable g wt s W inf) (hn : NegativeCycle g wt s) : ¬ ∃ o, dijkstra g wt inf s o := by
  rintro ⟨o, ho⟩
  unfold dijkstra at ho
  rcases ho with ⟨_, -, ho⟩ | ⟨f, h1, -⟩
  · rcases ho with ⟨d, h1, ho⟩ | ⟨f, h1, -⟩
    · have h1' : Except.ok d = vset (List.replicate g.length inf) s 0 := h1
      rw [vset_of_lt (by simpa using hu.sourceLt)] at h1'
      cases h1'
      rcases ho with ⟨x, h2, ho⟩ | ⟨f, h2, -⟩
      · have h2' : Except.ok x = vget ((List.replicate g.length inf).set s 0) s := h2
        rw [vget_of_lt (by simpa using hu.sourceLt)] at h2'
        simp at h2'
        subst h2'
        obtain ⟨o', ho'⟩ := run_first ho
        exact loop_endless hu hn ho' (init_inv hu)
      · have h2' : Except.error f = vget ((List.replicate g.length inf).set s 0) s := h2
        rw [vget_of_lt (by simpa using hu.sourceLt)] at h2'
        cases h2'
    · have h1' : Except.error f = vset (List.replicate g.length inf) s 0 := h1
      rw [vset_of_lt (by simpa using hu.sourceLt)] at h1'
      cases h1'
  · have h1' : Except.error f = check (s < g.length) := h1
    rw [show check (s < g.length) = .ok () by simp [check, hu.sourceLt]] at h1'
    cases h1'

/-- A source that is not a vertex fails the assertion. -/
theorem dijkstra_signed_source (hs : g.length ≤ s) : Run.Faults (dijkstra g wt inf s) .assertFailed :=
  (Run.faults_lift (by simp [check]; omega)).bind

/-- C145 for `delta_stepping`, as far as it holds: if no weight is negative it ends and returns the least weights.  `w` is the width of `size_t` and `cap` the largest number of bins
that a vector can have.  Missing from the full statement: negative weights, see `delta_stepping_negative_wrong` and `delta_stepping_lost_wrong`. -/
theorem delta_stepping_signed_partial (w cap : Nat) {delta : Int} (hu : Usable g wt s W inf) (hnn : ∀ u, ∀ e ∈ g.getD u [], 0 ≤ wt e) (hd : 0 < delta) (hw : inf + 1 < 2 ^ w)
    (hcap : inf / delta + 1 ≤ cap) : ∃ r, SDistances g wt s inf r ∧ ∀ o, Delta w cap g wt inf delta s o ↔ o = .ok r := by
  obtain ⟨I, rfl⟩ : ∃ I : Nat, inf = (I : Int) := ⟨inf.toNat, by have := hu.pos; omega⟩
  obtain ⟨D, rfl⟩ : ∃ D : Nat, delta = (D : Int) := ⟨delta.toNat, by omega⟩
  have hD : 0 < D := by omega
  have hI : 0 < I := by have := hu.pos; omega
  have hw' : I + 1 < 2 ^ w := by exact_mod_cast hw
  have hcap' : I / D + 1 ≤ cap := by exact_mod_cast hcap
  have hs := hu.sourceLt
  have husable : Sssp.Usable g (fun e => (wt e).toNat) s W.toNat I := by
    refine ⟨hu.inRange, hs, fun u e he => ?_, ?_⟩
    · have := (hu.weights u e he).2; omega
    · have h1 := hu.small
      rcases Int.lt_or_le W 0 with hW | hW
      · rw [Int.toNat_of_nonpos (by omega)]; omega
      · have : ((g.length * W.toNat : Nat) : Int) = g.length * W := by push_cast; rw [Int.toNat_of_nonneg hW]
        omega
  have hc : Sssp.Ctx g (fun e => (wt e).toNat) s W.toNat I I := ⟨husable.inRange, hs, husable.weights, husable.noWrap, hI⟩
  obtain ⟨r, hr, hdist⟩ := Sssp.delta_stepping_correct g (fun e => (wt e).toNat) s W.toNat I D husable hD hI
  obtain ⟨l1, l2⟩ := Sssp.labels_init hc
  refine ⟨up r, ⟨by simp [up, hdist.1], fun v hv => ⟨fun hre => ?_, fun hn => ?_⟩⟩, fun o => ?_⟩
  · obtain ⟨x, hx⟩ := hre.exists_least (fun e => (wt e).toNat)
    refine ⟨(x : Int), ⟨walk_up hnn hx.1, fun k y hy => ?_⟩, ?_⟩
    · obtain ⟨z, rfl, hz⟩ := walk_down hnn hy
      exact_mod_cast hx.2 z hz
    · simp [up, (hdist.2 v hv).1 x hx]
  · simp [up, (hdist.2 v hv).2 hn]
  · have hloop : Delta w cap g wt I D s (.ok (up r)) := by
      unfold Sssp.Delta at hr
      unfold Delta
      rw [vset_of_lt (by simpa using hs)] at hr ⊢
      dsimp only at hr ⊢
      have := loop_sim (w := w) (cap := cap) hc hD hw' hcap' hnn hr (by
        refine ⟨l1, ?_, by simp, ?_⟩
        · intro b hb x hx
          simp at hb; subst hb
          simp at hx; subst hx
          exact ⟨hs, by rw [l1.src]; exact hI⟩
        · intro z hz hzl
          have hzs := l2 z hz hzl
          subst hzs
          refine Or.inl (Or.inl ⟨?_, Nat.zero_le _⟩)
          dsimp only
          rw [l1.src, Nat.zero_div]; simp) (by
        intro t ht
        simp at ht; subst ht; simp)
      have hup : up ((List.replicate g.length I).set s 0) = (List.replicate g.length (I : Int)).set s 0 := by simp [up, List.map_set]
      rw [hup] at this
      exact this
    constructor
    · intro h
      unfold Delta at h hloop
      rw [vset_of_lt (by simpa using hs)] at h hloop
      exact Loop.det h hloop
    · rintro rfl; exact hloop

/-- C145 for `delta_stepping`, for weights of any sign and any `delta`: if it returns, then every entry is the value for unreachable vertices or the weight of a walk, so no entry is less
than the least weight, and vertices that cannot be reached get the value for them.  Missing from the full statement: that it returns, and that the walks are the lightest. -/
theorem delta_stepping_walks_partial (w cap : Nat) (g : Rows Int) (wt : Nat × Int → Int) (inf delta : Int) (s : Nat) (r : List Int) (h : Delta w cap g wt inf delta s (.ok r)) :
    r.length = g.length ∧ ∀ v, v < g.length → ∃ x, r[v]? = some x ∧ (x = inf ∨ ∃ k, SWalk g wt s v k x) ∧ (¬ Reachable g s v → x = inf) := by
  have hs : s < g.length := by
    by_contra hs
    unfold Delta at h
    rw [vset, if_neg (by simpa using hs)] at h
    cases h
  unfold Delta at h
  rw [vset_of_lt (by simpa using hs)] at h
  have h0 : ((List.replicate g.length inf).set s 0)[s]? = some 0 := by simp [hs]
  have hS : Sound g wt s inf [] ((List.replicate g.length inf).set s 0) [[s]] := by
    refine ⟨by simp, ?_, by simp, ?_⟩
    · intro v x hx
      by_cases c : s = v
      · subst c
        rw [h0] at hx; cases hx
        exact Or.inr ⟨0, .nil⟩
      · rw [List.getElem?_set_ne c] at hx
        obtain ⟨hlt, hx⟩ := List.getElem?_eq_some_iff.1 hx
        simp at hx
        exact Or.inl hx.symm
    · intro b hb v hv
      simp at hb; subst hb
      simp at hv; subst hv
      exact ⟨0, 0, h0, .nil⟩
  obtain ⟨h1, h2⟩ := loop_sound h hS r rfl
  refine ⟨h1, fun v hv => ?_⟩
  have hx : r[v]? = some r[v] := List.getElem?_eq_getElem (by omega)
  refine ⟨_, hx, h2 v _ hx, fun hn => ?_⟩
  rcases h2 v _ hx with h3 | ⟨k, hk⟩
  · exact h3
  · exact absurd (SWalk.reachable hk) hn

theorem toSize_neg {w k : Nat} (h0 : 0 < k) (hk : k < 2 ^ w) : toSize w (-(k : Int)) = 2 ^ w - k := by
  unfold toSize
  have h : (-(k : Int)) % 2 ^ w = ((2 ^ w - k : Nat) : Int) := by
    rw [← Int.add_emod_right]
    have : -(k : Int) + 2 ^ w = ((2 ^ w - k : Nat) : Int) := by
      rw [Nat.cast_sub (by omega)]
      push_cast
      ring
    rw [this]
    have h2 : ((2 : Int) ^ w) = ((2 ^ w : Nat) : Int) := by push_cast; rfl
    rw [h2, ← Int.natCast_mod, Nat.mod_eq_of_lt (by omega)]
  rw [h, Int.toNat_natCast]

/-- C145 is false of `delta_stepping`.  If the first edge of the source has a weight of at most `-delta`, the number of the bin is negative and becomes a huge one: either the bins are
resized to none and the access is out of bounds, or the size is too large and the exception ends the program.  `cap` is the largest number of bins that a vector can have;
the last hypothesis says that the wrapped size exceeds it. -/
theorem delta_stepping_negative_wrong (w cap : Nat) (g : Rows Int) (hg : InRange g) (wt : Nat × Int → Int) (inf delta : Int) (s : Nat) (e : Nat × Int) (r : List (Nat × Int))
    (hrow : g[s]? = some (e :: r)) (hinf : 0 ≤ inf) (hd : 0 < delta) (hneg : wt e ≤ -delta) (hcap0 : 0 < cap) (hcap : cap + -wt e / delta ≤ 2 ^ w) (o : Res (List Int)) :
    Delta w cap g wt inf delta s o ↔ o = .error (if -(2 * delta) < wt e then .outOfBounds else .terminated) := by
  have hs : s < g.length := (List.getElem?_eq_some_iff.1 hrow).1
  have he : e.1 < g.length := by
    refine hg s e.1 (Bfs.mem_row_edge (x := e) ?_)
    rw [List.getD_eq_getElem?_getD, hrow]; simp
  obtain ⟨m, hm⟩ : ∃ m : Nat, wt e = -(m : Int) := ⟨(-(wt e)).toNat, by omega⟩
  obtain ⟨D, rfl⟩ : ∃ D : Nat, delta = (D : Int) := ⟨delta.toNat, by omega⟩
  have hD : 0 < D := by omega
  have hDm : D ≤ m := by omega
  have hk0 : 0 < m / D := Nat.div_pos hDm hD
  have hw : cap + m / D ≤ 2 ^ w := by
    rw [hm, Int.neg_neg] at hcap
    exact_mod_cast hcap
  have hq : (wt e).tdiv (D : Int) = -((m / D : Nat) : Int) := by
    rw [hm, Int.neg_tdiv, Int.tdiv_eq_ediv_of_nonneg (by omega)]
    push_cast
    rfl
  have hpush : pushBin w cap D e.1 (wt e) [[]] = .error (if -(2 * (D : Int)) < wt e then .outOfBounds else .terminated) := by
    unfold pushBin
    rw [if_neg (by omega), hq, toSize_neg hk0 (by omega)]
    dsimp only
    rw [if_pos (by simp; omega)]
    by_cases c : m < 2 * D
    · have hk1 : m / D = 1 := by
        have : m / D < 2 := (Nat.div_lt_iff_lt_mul hD).2 (by omega)
        omega
      rw [hk1, show 2 ^ w - 1 + 1 = 2 ^ w by omega, Nat.mod_self, if_pos (by omega)]
      rfl
    · have hk2 : 2 ≤ m / D := (Nat.le_div_iff_mul_le hD).2 (by omega)
      rw [Nat.mod_eq_of_lt (by omega), if_neg (by omega)]
      unfold resize
      rw [if_pos (by omega)]
      rfl
  have hbody : sBody w cap g wt D ((List.replicate g.length inf).set s 0, [[s]], 0) = .error (if -(2 * (D : Int)) < wt e then .outOfBounds else .terminated) := by
    have h0 : vget ((List.replicate g.length inf).set s 0) s = .ok 0 := by
      rw [vget_of_lt (by simpa using hs)]; simp
    obtain ⟨x, hx, hx0⟩ : ∃ x, vget ((List.replicate g.length inf).set s 0) e.1 = .ok x ∧ 0 ≤ x := by
      rw [vget_of_lt (by simpa using he)]
      refine ⟨_, rfl, ?_⟩
      rw [List.getElem_set]
      split
      · exact Int.le_refl _
      · simpa using hinf
    simp only [sBody]
    rw [if_pos (by simp)]
    simp only [vget, vset, List.length_singleton, Nat.lt_one_iff, List.getElem?_cons_zero, ↓reduceIte, res_bind_ok, List.set_cons_zero, List.foldlM_cons]
    unfold sVertex
    dsimp only
    rw [h0, res_bind_ok, if_pos (by simp), vget_eq_ok.2 hrow, res_bind_ok, List.foldlM_cons]
    unfold relax
    dsimp only
    rw [h0, res_bind_ok, hx, res_bind_ok, if_pos (by omega), vset_of_lt (by simpa using he), res_bind_ok, Int.zero_add, hpush]
    rfl
  unfold Delta
  rw [vset_of_lt (by simpa using hs)]
  dsimp only
  constructor
  · intro h
    exact Loop.det h (.fault hbody)
  · rintro rfl
    exact .fault hbody

/-- 0 → 1 → 2 → 3 with weights 15, -10, 1. -/
def exLost : Rows Int := [[(1, 15)], [(2, -10)], [(3, 1)], []]

theorem exLost_noNegative : ¬ NegativeCycle exLost (·.2) 0 := by
  refine noNegative_of_potential (fun v => if v = 1 then 15 else if v = 2 then 5 else if v = 3 then 6 else 0) fun u e he => ?_
  match u with
  | 0 | 1 | 2 | 3 => revert e; decide
  | u + 4 => simp [exLost] at he

theorem exLost_usable : Usable exLost (·.2) 0 15 1000 where
  inRange := by decide
  sourceLt := by decide
  weights := by
    intro u e he
    match u with
    | 0 | 1 | 2 | 3 => revert e; decide
    | u + 4 => simp [exLost] at he
  small := by decide
  pos := by decide

/-- C145 is false of `delta_stepping` also without a fault: a vertex that gets into a bin before the current one is never scanned.  With `delta = 10` the vertex 3, which can be reached,
is reported as unreachable. -/
theorem delta_stepping_lost_wrong : ¬ NegativeCycle exLost (·.2) 0 ∧ Reachable exLost 0 3 ∧
    ∀ o, Delta 64 (2 ^ 58) exLost (·.2) 1000 10 0 o → o = .ok [0, 15, 5, 1000] := by
  refine ⟨exLost_noNegative, ⟨3, .snoc (.snoc (.snoc .nil (by decide : Edge exLost 0 1)) (by decide : Edge exLost 1 2)) (by decide : Edge exLost 2 3)⟩, fun o ho => ?_⟩
  have : Delta 64 (2 ^ 58) exLost (·.2) 1000 10 0 (.ok [0, 15, 5, 1000]) := Loop.of_runFuel (n := 9) (by decide +kernel)
  exact Loop.det ho this

/-- A case of `delta_stepping_walks_partial`: the same run; the entry 5 is the weight of a walk. -/
example : ∃ k, SWalk exLost (·.2) 0 2 k 5 := by
  obtain ⟨-, h⟩ := delta_stepping_walks_partial 64 (2 ^ 58) exLost (·.2) 1000 10 0 [0, 15, 5, 1000] (Loop.of_runFuel (n := 9) (by decide +kernel))
  obtain ⟨x, h1, h2, -⟩ := h 2 (by decide)
  cases h1
  simpa using h2

/-- A case of the theorems about `dijkstra`: the same graph. -/
example : Run.Gives (dijkstra exLost (·.2) 1000 0) (SDistances exLost (·.2) 0 1000) := dijkstra_signed exLost_usable exLost_noNegative

/-- A case of `delta_stepping_signed_partial`: a triangle with a detour, 32 bit distances and `delta = 10`. -/
example : ∃ r, SDistances [[(1, 35), (2, 10)], [], [(1, 20)]] (·.2) 0 2147483647 r ∧ ∀ o, Delta 64 (2 ^ 58) [[(1, 35), (2, 10)], [], [(1, 20)]] (·.2) 2147483647 10 0 o ↔ o = .ok r := by
  refine delta_stepping_signed_partial 64 (2 ^ 58) (W := 35) ⟨by decide, by decide, ?_, by decide, by decide⟩ ?_ (by decide) (by decide) (by decide)
  · intro u e he
    match u with
    | 0 | 1 | 2 => revert e; decide
    | u + 3 => simp at he
  · intro u e he
    match u with
    | 0 | 1 | 2 => revert e; decide
    | u + 3 => simp at he

/-- A case of `dijkstra_signed_endless`: a loop of weight -1. -/
example : Usable [[(0, -1)]] (·.2) 0 1 10 ∧ NegativeCycle ([[(0, -1)]] : Rows Int) (·.2) 0 := by
  refine ⟨⟨by decide, by decide, ?_, by decide, by decide⟩, 0, 1, -1, ⟨0, .nil⟩, .snoc (e := (0, -1)) .nil (by decide), by decide⟩
  intro u e he
  match u with
  | 0 => revert e; decide
  | u + 1 => simp at he

/-- Cases of `delta_stepping_negative_wrong`: 32 bit weights of -10 and of -25 with `delta = 10`. -/
example : (∀ o, Delta 64 (2 ^ 58) [[(1, -10)], []] (·.2) 1000 10 0 o ↔ o = .error .outOfBounds) ∧ ∀ o, Delta 64 (2 ^ 58) [[(1, -25)], []] (·.2) 1000 10 0 o ↔ o = .error .terminated :=
  ⟨fun o => delta_stepping_negative_wrong 64 (2 ^ 58) [[(1, -10)], []] (by decide) (·.2) 1000 10 0 (1, -10) [] rfl (by decide) (by decide) (by decide) (by decide) (by decide) o,
   fun o => delta_stepping_negative_wrong 64 (2 ^ 58) [[(1, -25)], []] (by decide) (·.2) 1000 10 0 (1, -25) [] rfl (by decide) (by decide) (by decide) (by decide) (by decide) o⟩

end NW.SsspSigned
