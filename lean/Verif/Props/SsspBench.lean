import Verif.Model.SsspBench
import Verif.Props.Sssp

/-!
# C110: the shortest path benchmark and its verifier

`Distances` and `IsLeast` are those of `Spec/Weighted`; `Usable` says that the neighbours and the source are vertices, that no weight exceeds `W` and that no sum of weights along a path wraps around.
-/

namespace NW.SsspBench
open Spec Sssp

variable {α : Type} {g : Rows α} {wt : Nat × α → Nat} {source W dmax : Nat}

/-! ## The oracle -/

structure OInv (g : Rows α) (wt : Nat × α → Nat) (s inf : Nat) (d q : List Nat) : Prop where
  labels : Labels g wt s inf d
  queue : ∀ x ∈ q, x < g.length ∧ lab inf d x < inf
  pend : ∀ z, z < g.length → lab inf d z < inf → z ∈ q ∨ Closed g wt (lab inf d) z

theorem oracle_sure {s inf : Nat} (hc : Ctx g wt s W inf dmax) (p : Nat × Nat) :
    ∀ (d q : List Nat), p = (d.sum, q.length) → OInv g wt s inf d q → Sure (OStep g wt dmax) (DResult g wt s inf) (d, q) := by
  have wf : WellFounded (Prod.Lex (· < ·) (· < ·) : Nat × Nat → Nat × Nat → Prop) := (Prod.lex Nat.lt_wfRel Nat.lt_wfRel).wf
  induction p using wf.induction with
  | _ p ih =>
  intro d q hp hI
  subst hp
  have key : ∀ {q' : List Nat} {u : Nat}, q.Perm (u :: q') → ∃ d₁ q₁,
      (do let r ← vget g u
          let st ← r.foldlM (relax wt dmax pushV u) (d, q')
          return .inl st : Res ((List Nat × List Nat) ⊕ List Nat)) = .ok (.inl (d₁, q₁)) ∧
      OInv g wt s inf d₁ q₁ ∧ Prod.Lex (· < ·) (· < ·) (d₁.sum, q₁.length) (d.sum, q.length) := by
    intro q' u hperm
    obtain ⟨hu, hlu⟩ := hI.queue u (hperm.mem_iff.2 (by simp))
    obtain ⟨d₁, q₁, b1, b2, b3, b4, b5, b6, b7⟩ := scan_row hc pushV
      (fun f q => ∀ x ∈ q, x < g.length ∧ f x < inf) (fun q z _ => z ∈ q) 0
      (by
        intro f f' q h hle x hx
        exact ⟨(h x hx).1, Nat.lt_of_le_of_lt (hle _) (h x hx).2⟩)
      (by
        intro f q j nd hV hj hf _ hnd
        refine ⟨q ++ [j], rfl, ?_, by simp, ?_⟩
        · intro x hx
          rcases List.mem_append.1 hx with hx | hx
          · exact hV x hx
          · simp at hx; subst hx; exact ⟨hj, by omega⟩
        · intro z l hl
          simp [hl])
      hI.labels (fun x hx => hI.queue x (hperm.mem_iff.2 (List.mem_cons_of_mem _ hx))) hu hlu (Nat.zero_le _)
      (by
        intro z hz hzl hzu
        rcases hI.pend z hz hzl with hl' | h
        · rcases List.mem_cons.1 (hperm.mem_iff.1 hl') with h | h
          · exact absurd h hzu
          · exact Or.inl h
        · exact Or.inr h)
    refine ⟨d₁, q₁, ?_, ⟨b2, b3, b6⟩, ?_⟩
    · rw [Bfs.vget_row hu, res_bind_ok, b1, res_bind_ok]; rfl
    · rcases b7 with ⟨rfl, rfl⟩ | h
      · have := hperm.length_eq
        simp at this
        exact Prod.Lex.right _ (by omega)
      · exact Prod.Lex.left _ _ h
  refine .mk ?_ ?_ ?_ ?_
  · cases q with
    | nil => exact ⟨_, .done⟩
    | cons x q' => exact ⟨_, .pop (u := x) (List.Perm.refl _)⟩
  · intro f hs
    generalize ho : (Except.error f : Res ((List Nat × List Nat) ⊕ List Nat)) = o at hs
    cases hs with
    | done => cases ho
    | pop hp =>
      obtain ⟨d₁, q₁, h1, -⟩ := key hp
      rw [h1] at ho; cases ho
  · intro r hs
    generalize ho : (Except.ok (Sum.inr r) : Res ((List Nat × List Nat) ⊕ List Nat)) = o at hs
    cases hs with
    | done =>
      cases ho
      refine hI.labels.result hc fun u hu hl => ?_
      rcases hI.pend u hu hl with h | h
      · cases h
      · exact h
    | pop hp =>
      obtain ⟨d₁, q₁, h1, -⟩ := key hp
      rw [h1] at ho; cases ho
  · rintro ⟨d', q'⟩ hs
    generalize ho : (Except.ok (Sum.inl (d', q')) : Res ((List Nat × List Nat) ⊕ List Nat)) = o at hs
    cases hs with
    | done => cases ho
    | pop hp =>
      obtain ⟨d₁, q₁, h1, h2, h3⟩ := key hp
      rw [h1] at ho
      cases ho
      exact ih _ h3 _ _ rfl h2

/-- C110, the benchmark's `dijkstra`.  Whatever the heap hands out, it ends without a fault; its result holds the least weight of a walk from the source, or a quarter of the largest distance where there is none
or where it is less than the least weight. -/
theorem oracle_correct (hu : Usable g wt source W dmax) (hmax : 4 ≤ dmax) : Run.Gives (dijkstra g wt dmax source) (DResult g wt source (dmax / 4)) := by
  have hinf : 0 < dmax / 4 := by omega
  have hc : Ctx g wt source W (dmax / 4) dmax := ⟨hu.inRange, hu.sourceLt, hu.weights, hu.noWrap, hinf⟩
  obtain ⟨h1, h2⟩ := labels_init hc
  unfold dijkstra
  have hv : vset (List.replicate g.length (inf dmax)) source 0 = .ok ((List.replicate g.length (dmax / 4)).set source 0) := vset_of_lt (by simpa using hu.sourceLt)
  refine Run.Gives.bind (Run.gives_lift hv rfl) ?_
  rintro _ rfl
  have hsure := oracle_sure hc _ ((List.replicate g.length (dmax / 4)).set source 0) [source] rfl ⟨h1, ?_, ?_⟩
  · exact ⟨hsure.exists_run.elim fun r hr => ⟨_, hr.1⟩, fun o ho => hsure.outcome ho⟩
  · intro x hx
    simp at hx; subst hx
    exact ⟨hu.sourceLt, by rw [h1.src]; exact hinf⟩
  · intro z hz hzl
    exact Or.inl (by simp [h2 z hz hzl])

/-- The result is determined by the graph. -/
theorem DResult.unique {inf : Nat} {r r' : List Nat} (h : DResult g wt source inf r) (h' : DResult g wt source inf r') : r = r' := by
  apply List.ext_getElem?
  intro v
  rcases Nat.lt_or_ge v g.length with hv | hv
  · by_cases hr : Reachable g source v
    · obtain ⟨x, hx⟩ := hr.exists_least wt
      rw [(h.2 v hv).1 x hx, (h'.2 v hv).1 x hx]
    · rw [(h.2 v hv).2 hr, (h'.2 v hv).2 hr]
  · rw [List.getElem?_eq_none (by rw [h.1]; exact hv), List.getElem?_eq_none (by rw [h'.1]; exact hv)]

/-! ## The verifier -/

theorem stdEqual_spec : ∀ (a b : List Nat), stdEqual a b = if a <+: b then .ok true else if b <+: a then .error .outOfBounds else .ok false
  | [], b => by simp [stdEqual]
  | x :: xs, [] => by simp [stdEqual]
  | x :: xs, y :: ys => by
    unfold stdEqual
    rw [stdEqual_spec xs ys]
    by_cases h : x = y
    · subst h; simp [List.cons_prefix_cons]
    · rw [if_neg h, if_neg fun hp => h (List.cons_prefix_cons.1 hp).1, if_neg fun hp => h (List.cons_prefix_cons.1 hp).1.symm]

/-- C110, the verifier, on a vector with one entry for each vertex: it accepts the least weights, with a quarter of the largest distance for "not reached", and nothing else. -/
theorem verifier_accepts_iff (hu : Usable g wt source W dmax) (hmax : 4 ≤ dmax) (hsmall : g.length * W ≤ dmax / 4) (dist : List Nat) (hlen : dist.length = g.length) (verbose : Bool) :
    Run.Gives (verifier g wt dmax source dist verbose) fun b => b = true ↔ Distances g wt source (dmax / 4) dist := by
  unfold verifier
  refine (oracle_correct hu hmax).bind fun r hr => ?_
  have hd : Distances g wt source (dmax / 4) r :=
    ⟨hr.1, fun v hv => ⟨fun x hx => by rw [(hr.2 v hv).1 x hx, Nat.min_eq_left (Nat.le_trans (least_le hu.inRange hu.sourceLt hu.weights hx) hsmall)], (hr.2 v hv).2⟩⟩
  by_cases he : dist = r
  · subst he
    refine Run.Gives.bind (Run.gives_lift (by rw [stdEqual_spec, if_pos List.prefix_rfl]) rfl) ?_
    rintro _ rfl
    exact Run.gives_pure ⟨fun _ => hd, fun _ => rfl⟩
  · have hno : ¬ Distances g wt source (dmax / 4) dist := by
      intro h
      refine he (List.ext_getElem? fun v => ?_)
      rcases Nat.lt_or_ge v g.length with hv | hv
      · by_cases hre : Reachable g source v
        · obtain ⟨x, hx⟩ := hre.exists_least wt
          rw [(h.2 v hv).1 x hx, (hd.2 v hv).1 x hx]
        · rw [(h.2 v hv).2 hre, (hd.2 v hv).2 hre]
      · rw [List.getElem?_eq_none (by omega), List.getElem?_eq_none (by rw [hr.1]; exact hv)]
    have h1 : stdEqual dist r = .ok false := by
      rw [stdEqual_spec, if_neg fun hp => he (hp.eq_of_length (by rw [hlen, hr.1])), if_neg fun hp => he (hp.eq_of_length (by rw [hlen, hr.1])).symm]
    refine Run.Gives.bind (Run.gives_lift h1 rfl) ?_
    rintro _ rfl
    simp only [Bool.false_eq_true, if_false]
    split
    · have hm : (List.range dist.length).mapM (vget r) = .ok ((List.range dist.length).map fun i => r.getD i 0) :=
        mapM_ok_of_forall fun i hi => by
          have := List.mem_range.1 hi
          have hl := hr.1
          rw [vget_of_lt (by omega), List.getD_eq_getElem?_getD, List.getElem?_eq_getElem (by omega)]; rfl
      refine Run.Gives.bind (Run.gives_lift hm rfl) ?_
      rintro _ rfl
      exact Run.gives_pure (by simpa using hno)
    · exact Run.gives_pure (by simpa using hno)

/-- C110, the verifier, on a vector with fewer entries: it accepts every part of the distances from the beginning, the empty vector among them. -/
theorem verifier_accepts_short (hu : Usable g wt source W dmax) (hmax : 4 ≤ dmax) (dist : List Nat) (hp : ∀ r, DResult g wt source (dmax / 4) r → dist <+: r) (verbose : Bool) :
    Run.Gives (verifier g wt dmax source dist verbose) (· = true) := by
  unfold verifier
  refine (oracle_correct hu hmax).bind fun r hr => ?_
  refine Run.Gives.bind (Run.gives_lift (by rw [stdEqual_spec, if_pos (hp r hr)]) rfl) ?_
  rintro _ rfl
  exact Run.gives_pure rfl

/-- C110, the verifier, on a vector that begins with the distances and has more entries: it reads past the end of its own. -/
theorem verifier_long_out_of_bounds (hu : Usable g wt source W dmax) (hmax : 4 ≤ dmax) (dist : List Nat) (hp : ∀ r, DResult g wt source (dmax / 4) r → r <+: dist)
    (hlen : g.length < dist.length) (verbose : Bool) : Run.Faults (verifier g wt dmax source dist verbose) .outOfBounds := by
  unfold verifier
  refine (oracle_correct hu hmax).bind_faults fun r hr => ?_
  have h1 : stdEqual dist r = .error .outOfBounds := by
    rw [stdEqual_spec, if_neg fun h => by have := h.length_le; have := hr.1; omega, if_pos (hp r hr)]
  exact (Run.faults_lift h1).bind

/-- C110.  The distances as the library's algorithms return them have the largest distance itself for "not reached".  So the verifier accepts a correct result exactly if every vertex can be reached. -/
theorem verifier_on_correct_result (hu : Usable g wt source W dmax) (hmax : 4 ≤ dmax) (hsmall : g.length * W ≤ dmax / 4) (dist : List Nat) (hd : Distances g wt source dmax dist) (verbose : Bool) :
    Run.Gives (verifier g wt dmax source dist verbose) fun b => b = true ↔ ∀ v, v < g.length → Reachable g source v := by
  refine (verifier_accepts_iff hu hmax hsmall dist hd.1 verbose).mono fun b hb => ?_
  rw [hb]
  constructor
  · intro h v hv
    by_contra hn
    have h1 := (h.2 v hv).2 hn
    rw [(hd.2 v hv).2 hn] at h1
    have := Option.some.inj h1
    omega
  · intro h
    exact ⟨hd.1, fun v hv => ⟨(hd.2 v hv).1, fun hn => absurd (h v hv) hn⟩⟩

/-- C110, `sssp --version 0 --verify`: although `delta_stepping` is correct (C26), verification fails for every graph with a vertex that cannot be reached, and succeeds for the others. -/
theorem version0_verified_iff (hu : Usable g wt source W dmax) (hmax : 4 ≤ dmax) (hsmall : g.length * W ≤ dmax / 4) (delta : Nat) (hd : 0 < delta) (verbose : Bool) :
    Run.Gives (version0 g wt dmax delta source verbose) fun b => b = true ↔ ∀ v, v < g.length → Reachable g source v := by
  obtain ⟨r, h1, h2⟩ := delta_stepping_correct g wt source W dmax delta hu hd (by omega)
  have hg : Run.Gives (Delta g wt dmax delta source : Run (List Nat)) (Distances g wt source dmax) :=
    ⟨⟨_, h1⟩, fun o ho => ⟨r, Delta.det ho h1, h2⟩⟩
  exact hg.bind fun d hd => verifier_on_correct_result hu hmax hsmall d hd verbose

/-- C110, `sssp --version 13 --verify`: the benchmark's own algorithm passes. -/
theorem version13_verified (hu : Usable g wt source W dmax) (hmax : 4 ≤ dmax) (verbose : Bool) : Run.Gives (version13 g wt dmax source verbose) (· = true) := by
  refine (oracle_correct hu hmax).bind fun d hd => ?_
  refine verifier_accepts_short hu hmax d (fun r hr => ?_) verbose
  rw [DResult.unique hd hr]
  exact List.prefix_rfl

/-! ## The sources -/

/-- C110: with enough sources, the trials use them one after the other. -/
theorem sources_in_order (sources : List Nat) (trials iterations : Nat) (h : trials * iterations ≤ sources.length) : sourcesUsed sources trials iterations = .ok (sources.take (trials * iterations)) := by
  unfold sourcesUsed
  induction trials with
  | zero => simp
  | succ t ih =>
    have hle : t * iterations + iterations ≤ sources.length := by rw [Nat.add_mul, Nat.one_mul] at h; exact h
    rw [List.range_succ, List.foldlM_append, ih (by omega), res_bind_ok, List.foldlM_cons]
    have hm : (List.range iterations).mapM (fun j => vget sources (t * iterations + j)) = .ok ((List.range iterations).map fun j => sources.getD (t * iterations + j) 0) :=
      mapM_ok_of_forall fun j hj => by
        have := List.mem_range.1 hj
        rw [vget_of_lt (by omega), List.getD_eq_getElem?_getD, List.getElem?_eq_getElem (by omega)]; rfl
    rw [hm, res_bind_ok]
    simp only [res_pure, res_bind_ok, List.foldlM_nil]
    congr 1
    apply List.ext_getElem
    · simp; rw [Nat.add_mul]; omega
    · intro i h1 h2
      rw [List.getElem_append]
      split
      · simp
      · rename_i h3
        simp at h1 h2 h3
        have h4 : (min (t * iterations) sources.length) = t * iterations := by omega
        simp [h4, List.getD_eq_getElem?_getD]
        rw [show t * iterations + (i - t * iterations) = i by omega, List.getElem?_eq_getElem (by omega)]; rfl

/-- C110: `-r` and random sources make one source for each trial; with more than one iteration the benchmark reads past their end. -/
theorem sources_out_of_bounds (sources : List Nat) (trials iterations : Nat) (hs : sources.length = trials) (ht : 0 < trials) (hi : 2 ≤ iterations) :
    sourcesUsed sources trials iterations = .error .outOfBounds := by
  -- the first trial that fails
  have key : ∀ (is : List Nat) (acc : List Nat), (∃ i ∈ is, sources.length < i * iterations + iterations) →
      is.foldlM (fun acc i => do
        let l ← (List.range iterations).mapM fun j => vget sources (i * iterations + j)
        return acc ++ l) acc = (.error .outOfBounds : Res (List Nat)) := by
    have herr : ∀ i, sources.length < i * iterations + iterations → (List.range iterations).mapM (fun j => vget sources (i * iterations + j)) = .error .outOfBounds := by
      intro i hi'
      have : ∀ js : List Nat, (∃ j ∈ js, sources.length ≤ i * iterations + j) → js.mapM (fun j => vget sources (i * iterations + j)) = .error .outOfBounds := by
        intro js
        induction js with
        | nil => rintro ⟨j, hj, -⟩; cases hj
        | cons j js ih =>
          rintro ⟨k, hk, hk2⟩
          rw [List.mapM_cons]
          rcases Nat.lt_or_ge (i * iterations + j) sources.length with hlt | hge
          · rw [vget_of_lt hlt, res_bind_ok]
            rcases List.mem_cons.1 hk with rfl | hk
            · omega
            · rw [ih ⟨k, hk, hk2⟩]; rfl
          · rw [vget_of_ge hge]; rfl
      exact this _ ⟨iterations - 1, List.mem_range.2 (by omega), by omega⟩
    intro is
    induction is with
    | nil => rintro _ ⟨i, hi, -⟩; cases hi
    | cons i is ih =>
      rintro acc ⟨k, hk, hk2⟩
      rw [List.foldlM_cons]
      rcases Nat.lt_or_ge sources.length (i * iterations + iterations) with hlt | hge
      · rw [herr i hlt]; rfl
      · have hm : (List.range iterations).mapM (fun j => vget sources (i * iterations + j)) = .ok ((List.range iterations).map fun j => sources.getD (i * iterations + j) 0) :=
          mapM_ok_of_forall fun j hj => by
            have := List.mem_range.1 hj
            rw [vget_of_lt (by omega), List.getD_eq_getElem?_getD, List.getElem?_eq_getElem (by omega)]; rfl
        rw [hm, res_bind_ok, res_pure, res_bind_ok]
        rcases List.mem_cons.1 hk with rfl | hk
        · omega
        · exact ih _ ⟨k, hk, hk2⟩
  refine key _ _ ⟨trials - 1, List.mem_range.2 (by omega), ?_⟩
  have : trials * 2 ≤ trials * iterations := Nat.mul_le_mul_left _ hi
  have h2 : (trials - 1) * iterations + iterations = trials * iterations := by
    obtain ⟨t, rfl⟩ : ∃ t, trials = t + 1 := ⟨trials - 1, by omega⟩
    rw [Nat.add_sub_cancel, Nat.add_mul, Nat.one_mul]
  omega

/-! ## The hypotheses can be met -/

/-- Four vertices; the last one cannot be reached from 0. -/
def exG : Rows Nat := [[(1, 7), (2, 2)], [], [(1, 3)], [(0, 1)]]

theorem exG_usable : Usable exG (·.2) 0 7 1023 where
  inRange := by decide
  sourceLt := by decide
  weights := by
    intro u e he
    match u with
    | 0 | 1 | 2 | 3 => revert e; decide
    | u + 4 => simp [exG] at he
  noWrap := by decide

theorem exG_unreachable : ¬ Reachable exG 0 3 := by
  rintro ⟨k, hk⟩
  cases hk with
  | @snoc u _ _ h he =>
    match u with
    | 0 | 1 | 2 | 3 => revert he; unfold Edge; decide
    | u + 4 => simp [Edge, nbrs, exG] at he

/-- A correct result that is rejected. -/
example : Run.Gives (version0 exG (·.2) 1023 4 0 true) (· = false) := by
  refine (version0_verified_iff exG_usable (by decide) (by decide) 4 (by decide) true).mono fun b hb => ?_
  cases b with
  | false => rfl
  | true => exact absurd (hb.1 rfl 3 (by decide)) exG_unreachable

/-- The same graph without the last vertex: accepted. -/
example : Run.Gives (version0 [[(1, 7), (2, 2)], [], [(1, 3)]] (·.2) 1023 4 0 true) (· = true) := by
  have hu : Usable ([[(1, 7), (2, 2)], [], [(1, 3)]] : Rows Nat) (·.2) 0 7 1023 := ⟨by decide, by decide, fun u e he => by
    match u with
    | 0 | 1 | 2 => revert e; decide
    | u + 3 => simp at he, by decide⟩
  refine (version0_verified_iff hu (by decide) (by decide) 4 (by decide) true).mono fun b hb => hb.2 fun v hv => ?_
  have : v < 3 := hv
  match v with
  | 0 => exact ⟨0, .nil⟩
  | 1 => exact ⟨1, .snoc .nil (by decide)⟩
  | 2 => exact ⟨1, .snoc .nil (by decide)⟩

example : Run.Gives (verifier exG (·.2) 1023 0 [] false) (· = true) := verifier_accepts_short exG_usable (by decide) [] (fun _ _ => List.nil_prefix) false

example : sourcesUsed (repeated 3 8) 3 2 = .error .outOfBounds := sources_out_of_bounds _ 3 2 rfl (by decide) (by decide)

example : sourcesUsed [4, 5, 6, 7] 2 2 = .ok [4, 5, 6, 7] := sources_in_order _ 2 2 (by decide)

end NW.SsspBench
