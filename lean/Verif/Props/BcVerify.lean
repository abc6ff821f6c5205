import Verif.Lemmas.BcVerify

/-!
# Property C89: `BCVerifier`

What the verifier compares with is `parScore` (see C41): the betweenness with respect to the sources, plus the number of other vertices reached from the vertex
for each time that it is itself a source.
-/

namespace NW.BcVerify
open Spec
open NW.Brandes (Vec)
open NW.BrandesPar (parScore sum_dependency reached)

variable {α : Type}

/-- The scores the verifier computes, before normalisation. -/
noncomputable def expected (g : Rows α) (sources : List Nat) : List ℚ := (List.range g.length).map (parScore g sources)

theorem scores_gives (M : Nat) {g : Rows α} (hg : InRange g) {sources : List Nat} (hs : ∀ s ∈ sources, s < g.length)
    (hfit : ∀ s ∈ sources, ∀ t < g.length, (shortestPaths g s t).length < M) : Run.Gives (scores M g sources) (· = expected g sources) := by
  unfold scores
  refine Run.Gives.mono (Run.gives_foldlM (fun pre c => Vec g.length (fun v => (pre.map fun s => dependency g s v).sum) c) ?_ ?_) fun c hc => ?_
  · exact (Vec.replicate g.length (0 : ℚ)).congr fun v _ => by simp
  · intro pre s post hl c hc
    have hm : s ∈ sources := by rw [hl]; simp
    refine (source_gives M hg (hs s hm) (hfit s hm) hc).mono fun c' hc' => hc'.congr fun v _ => ?_
    rw [List.map_append, List.sum_append]
    simp
  · exact (hc.congr fun v hv => sum_dependency hg hv sources).eq_map

/-- The comparison loop. -/
theorem compare_ok (a : Accum) (test : List (Option ℚ)) (sc : List (Option ℚ)) (bad : Nat → Bool) (k : Nat) (ok : Bool)
    (h : ∀ (i : Nat) (x : Option ℚ), sc[i]? = some x → ∃ t, test[k + i]? = some t ∧ differs a t x = .ok (bad (k + i))) :
    ((sc.zipIdx k).map fun x => (x.2, x.1)).foldlM (compare a test) ok = .ok (ok && decide (∀ i < sc.length, bad (k + i) = false)) := by
  induction sc generalizing k ok with
  | nil => simp
  | cons x sc ih =>
    obtain ⟨t, h1, h2⟩ := h 0 x rfl
    rw [Nat.add_zero] at h1 h2
    rw [List.zipIdx_cons, List.map_cons, List.foldlM_cons]
    have hc : compare a test ok (k, x) = .ok (ok && !bad k) := by
      unfold compare
      rw [show vget test k = .ok t from by rw [vget_eq_ok]; exact h1, res_bind_ok, h2, res_bind_ok]
      cases bad k <;> cases ok <;> rfl
    simp only []
    rw [hc, res_bind_ok, ih (k + 1) _ (fun i y hy => by
      obtain ⟨t, h3, h4⟩ := h (i + 1) y (by simpa using hy)
      exact ⟨t, by rw [← h3]; congr 1; omega, by rw [h4]; congr 2; omega⟩)]
    congr 1
    rw [Bool.and_assoc]
    congr 1
    by_cases hk : bad k = true
    · have : ¬ ∀ i < (x :: sc).length, bad (k + i) = false := fun hall => by
        have := hall 0 (by simp)
        rw [Nat.add_zero, hk] at this
        cases this
      simp only [decide_eq_false this, hk]
      simp
    · have hk' : bad k = false := by simpa using hk
      have : (∀ i < (x :: sc).length, bad (k + i) = false) ↔ ∀ i < sc.length, bad (k + 1 + i) = false := by
        constructor
        · intro hall i hi
          have := hall (i + 1) (by simpa using hi)
          rw [← this]
          congr 1
          omega
        · intro hall i hi
          cases i with
          | zero => simpa using hk'
          | succ i =>
            have := hall i (by simpa using hi)
            rw [← this]
            congr 1
            omega
      simp only [hk', Bool.not_false, Bool.true_and, this]

/-- Two numbers are the same up to the tolerance; "not a number" is not compared. -/
def Near (t : Option ℚ) (x : ℚ) : Prop := ∀ y, t = some y → |y - x| ≤ 1 / 1000000

/-- C89, the part that holds.  Without normalisation and with a floating-point counting type, for every graph with in-range neighbours, every list of sources, and every vector with an entry for every vertex,
the verifier ends without a fault and accepts exactly the vectors that agree with `parScore` up to the tolerance (in the entries that are numbers).  The numbers of shortest paths have
to fit the type used for counting. -/
theorem bcverifier_partial (M : Nat) (g : Rows α) (hg : InRange g) (sources : List Nat) (hs : ∀ s ∈ sources, s < g.length)
    (hfit : ∀ s ∈ sources, ∀ t < g.length, (shortestPaths g s t).length < M) (test : List (Option ℚ)) (hlen : g.length ≤ test.length) :
    Run.Gives (verifier .floating M g sources test false) fun r => r = true ↔ ∀ (v : Nat) (t : Option ℚ), v < g.length → test[v]? = some t → Near t (parScore g sources v) := by
  classical
  unfold verifier
  refine (scores_gives M hg hs hfit).bind ?_
  rintro _ rfl
  simp only [Bool.false_eq_true, if_false]
  refine (Run.gives_lift rfl (Q := (· = (expected g sources).map some)) rfl).bind ?_
  rintro _ rfl
  have hel : (expected g sources).length = g.length := by simp [expected]
  refine Run.gives_lift (compare_ok .floating test _ (fun v => decide (¬ ∀ t, test[v]? = some t → Near t (parScore g sources v))) 0 true ?_) ?_
  · intro i x hx
    have hi : i < g.length := by
      have := (List.getElem?_eq_some_iff.1 hx).1
      simpa [hel] using this
    rw [List.getElem?_map, expected, List.getElem?_map, List.getElem?_range hi] at hx
    cases hx
    refine ⟨test[i]'(by omega), by rw [Nat.zero_add]; exact List.getElem?_eq_getElem (by omega), ?_⟩
    have hti : test[i]? = some (test[i]'(by omega)) := List.getElem?_eq_getElem (by omega)
    rw [Nat.zero_add]
    generalize test[i]'(by omega) = t at hti
    cases t with
    | none =>
      simp only [differs]
      congr 1
      symm
      simp [hti, Near]
    | some y =>
      simp only [differs]
      show Except.ok _ = _
      congr 1
      simp [hti, Near]
  · simp only [List.length_map, hel, Bool.true_and, decide_eq_true_eq, Nat.zero_add, decide_eq_false_iff_not, not_not]
    exact ⟨fun h v t hv ht => h v hv t ht, fun h v hv t ht => h v t hv ht⟩

/-- The same with normalisation: if some score is not zero, the vectors accepted are those that agree with the scores divided by the largest one. -/
theorem bcverifier_normalised_partial (M : Nat) (g : Rows α) (hg : InRange g) (sources : List Nat) (hs : ∀ s ∈ sources, s < g.length)
    (hfit : ∀ s ∈ sources, ∀ t < g.length, (shortestPaths g s t).length < M) {m : Nat} (hm : m < g.length) (hmax : ∀ v < g.length, parScore g sources v ≤ parScore g sources m)
    (hne : parScore g sources m ≠ 0) (test : List (Option ℚ)) (hlen : g.length ≤ test.length) :
    Run.Gives (verifier .floating M g sources test true) fun r => r = true ↔ ∀ (v : Nat) (t : Option ℚ), v < g.length → test[v]? = some t →
      Near t (parScore g sources v / parScore g sources m) := by
  classical
  unfold verifier
  refine (scores_gives M hg hs hfit).bind ?_
  rintro _ rfl
  simp only [if_true]
  have hel : (expected g sources).length = g.length := by simp [expected]
  have hnorm : Brandes.normalise (expected g sources) = .ok ((expected g sources).map fun y => some (y / parScore g sources m)) := by
    have hmem : parScore g sources m ∈ expected g sources := List.mem_map.2 ⟨m, List.mem_range.2 hm, rfl⟩
    have hall : ∀ y ∈ expected g sources, y ≤ parScore g sources m := by
      intro y hy
      obtain ⟨v, hv, rfl⟩ := List.mem_map.1 hy
      exact hmax v (List.mem_range.1 hv)
    cases hc : expected g sources with
    | nil => rw [hc] at hmem; simp at hmem
    | cons x xs =>
      rw [hc] at hmem hall
      obtain ⟨h1, h2⟩ := Brandes.foldl_max x xs
      have : xs.foldl max x = parScore g sources m := le_antisymm (hall _ h1) (h2 _ hmem)
      unfold Brandes.normalise
      simp only [this, if_neg hne]
      rfl
  refine (Run.gives_lift hnorm (Q := (· = (expected g sources).map fun y => some (y / parScore g sources m))) rfl).bind ?_
  rintro _ rfl
  refine Run.gives_lift (compare_ok .floating test _ (fun v => decide (¬ ∀ t, test[v]? = some t → Near t (parScore g sources v / parScore g sources m))) 0 true ?_) ?_
  · intro i x hx
    have hi : i < g.length := by
      have := (List.getElem?_eq_some_iff.1 hx).1
      simpa [hel] using this
    rw [List.getElem?_map, expected, List.getElem?_map, List.getElem?_range hi] at hx
    cases hx
    refine ⟨test[i]'(by omega), by rw [Nat.zero_add]; exact List.getElem?_eq_getElem (by omega), ?_⟩
    have hti : test[i]? = some (test[i]'(by omega)) := List.getElem?_eq_getElem (by omega)
    rw [Nat.zero_add]
    generalize test[i]'(by omega) = t at hti
    cases t with
    | none =>
      simp only [differs]
      congr 1
      symm
      simp [hti, Near]
    | some y =>
      simp only [differs]
      show Except.ok _ = _
      congr 1
      simp [hti, Near]
  · simp only [List.length_map, hel, Bool.true_and, decide_eq_true_eq, Nat.zero_add, decide_eq_false_iff_not, not_not]
    exact ⟨fun h v t hv ht => h v hv t ht, fun h v hv t ht => h v t hv ht⟩

/-- With an integral counting type the difference is rounded down before it is compared: everything that is off by less than 1 is accepted. -/
theorem bcverifier_integral (M : Nat) (g : Rows α) (hg : InRange g) (sources : List Nat) (hs : ∀ s ∈ sources, s < g.length)
    (hfit : ∀ s ∈ sources, ∀ t < g.length, (shortestPaths g s t).length < M) (test : List ℚ) (hlen : g.length ≤ test.length) :
    Run.Gives (verifier .integral M g sources (test.map some) false) fun r => r = true ↔ ∀ (v : Nat) (t : ℚ), v < g.length → test[v]? = some t → |t - parScore g sources v| < 1 := by
  classical
  unfold verifier
  refine (scores_gives M hg hs hfit).bind ?_
  rintro _ rfl
  simp only [Bool.false_eq_true, if_false]
  refine (Run.gives_lift rfl (Q := (· = (expected g sources).map some)) rfl).bind ?_
  rintro _ rfl
  have hel : (expected g sources).length = g.length := by simp [expected]
  refine Run.gives_lift (compare_ok .integral (test.map some) _ (fun v => decide (¬ ∀ t, test[v]? = some t → |t - parScore g sources v| < 1)) 0 true ?_) ?_
  · intro i x hx
    have hi : i < g.length := by
      have := (List.getElem?_eq_some_iff.1 hx).1
      simpa [hel] using this
    rw [List.getElem?_map, expected, List.getElem?_map, List.getElem?_range hi] at hx
    cases hx
    have hti : test[i]? = some (test[i]'(by omega)) := List.getElem?_eq_getElem (by omega)
    refine ⟨some (test[i]'(by omega)), by rw [Nat.zero_add, List.getElem?_map, hti]; rfl, ?_⟩
    rw [Nat.zero_add]
    generalize test[i]'(by omega) = t at hti
    simp only [differs]
    show Except.ok _ = _
    congr 1
    simp only [hti, Option.some.injEq, forall_eq', not_lt]
    apply Bool.decide_congr
    set z := |t - parScore g sources i| with hz
    constructor
    · intro h
      by_contra hlt
      have hfl : Rat.floor z < 1 := by
        by_contra hh
        exact hlt (by exact_mod_cast Rat.le_floor_iff.1 (not_lt.1 hh))
      have : ((Rat.floor z : Int) : ℚ) ≤ 0 := by exact_mod_cast Int.lt_add_one_iff.1 (by simpa using hfl)
      linarith
    · intro h
      have : (1 : Int) ≤ Rat.floor z := Rat.le_floor_iff.2 (by exact_mod_cast h)
      have : (1 : ℚ) ≤ ((Rat.floor z : Int) : ℚ) := by exact_mod_cast this
      linarith
  · simp only [List.length_map, hel, Bool.true_and, decide_eq_true_eq, Nat.zero_add, decide_eq_false_iff_not, not_not]
    exact ⟨fun h v t hv ht => h v hv t ht, fun h v hv t ht => h v t hv ht⟩

/-- C89 is false: if a source has an edge to another vertex, the vector of the exact betweenness values (what the sequential `brandes_bc` returns when all vertices are sources) is rejected,
even with the rounding of an integral counting type. -/
theorem bcverifier_rejects_exact (a : Accum) (M : Nat) (g : Rows α) (hg : InRange g) (sources : List Nat) (hs : ∀ s ∈ sources, s < g.length)
    (hfit : ∀ s ∈ sources, ∀ t < g.length, (shortestPaths g s t).length < M) {v w : Nat} (hv : v ∈ sources) (he : Edge g v w) (hne : w ≠ v) :
    Run.Gives (verifier a M g sources (((List.range g.length).map (betweenness g sources)).map some) false) (· = false) := by
  have hvn := hs v hv
  have hgap : 1 ≤ |betweenness g sources v - parScore g sources v| := by
    have h3 : 0 < sources.count v := List.count_pos_iff.2 hv
    have h4 : 0 < reached g v := by
      classical
      unfold reached
      rw [List.length_pos_iff]
      intro e
      have : w ∈ (List.range g.length).filter fun t => t ≠ v ∧ Reachable g v t := by
        rw [List.mem_filter]
        exact ⟨List.mem_range.2 (hg v w he), by simpa using ⟨hne, 1, .snoc .nil he⟩⟩
      rw [e] at this; simp at this
    have h5 : (1 : ℚ) ≤ (sources.count v : ℚ) * (reached g v : ℚ) := by
      have : 1 ≤ sources.count v * reached g v := Nat.mul_pos h3 h4
      exact_mod_cast this
    unfold parScore
    rw [abs_sub_comm, add_sub_cancel_left, abs_of_nonneg (by linarith)]
    exact h5
  have hget : ((List.range g.length).map (betweenness g sources))[v]? = some (betweenness g sources v) := by
    rw [List.getElem?_map, List.getElem?_range hvn]
    rfl
  cases a with
  | floating =>
    refine (bcverifier_partial M g hg sources hs hfit _ (by simp)).mono fun r hr => ?_
    cases r with
    | false => rfl
    | true =>
      have := hr.1 rfl v (some (betweenness g sources v)) hvn (by rw [List.getElem?_map, hget]; rfl) _ rfl
      linarith
  | integral =>
    refine (bcverifier_integral M g hg sources hs hfit _ (by simp)).mono fun r hr => ?_
    cases r with
    | false => rfl
    | true =>
      have := hr.1 rfl v _ hvn hget
      linarith

/-- With normalisation, when every score is zero (no source reaches another vertex), every entry becomes "not a number" and every vector is accepted. -/
theorem bcverifier_accepts_all (M : Nat) (g : Rows α) (hg : InRange g) (hn : 0 < g.length) (sources : List Nat) (hs : ∀ s ∈ sources, s < g.length)
    (hfit : ∀ s ∈ sources, ∀ t < g.length, (shortestPaths g s t).length < M) (hzero : ∀ v < g.length, parScore g sources v = 0) (test : List (Option ℚ))
    (hlen : g.length ≤ test.length) : Run.Gives (verifier .floating M g sources test true) (· = true) := by
  unfold verifier
  refine (scores_gives M hg hs hfit).bind ?_
  rintro _ rfl
  simp only [if_true]
  have hex : expected g sources = List.replicate g.length 0 := by
    rw [List.eq_replicate_iff]
    refine ⟨by simp [expected], fun x hx => ?_⟩
    obtain ⟨v, hv, rfl⟩ := List.mem_map.1 hx
    exact hzero v (List.mem_range.1 hv)
  have hnorm : Brandes.normalise (expected g sources) = .ok (List.replicate g.length none) := by
    rw [hex]
    obtain ⟨n, hn'⟩ : ∃ n, g.length = n + 1 := ⟨g.length - 1, by omega⟩
    rw [hn', List.replicate_succ]
    unfold Brandes.normalise
    have : (List.replicate n (0 : ℚ)).foldl max 0 = 0 := by
      rcases List.mem_cons.1 (Brandes.foldl_max 0 (List.replicate n 0)).1 with h | h
      · exact h
      · exact List.eq_of_mem_replicate h
    simp only [this]
    show Except.ok _ = _
    congr 1
    rw [List.eq_replicate_iff]
    simp
  refine (Run.gives_lift hnorm (Q := (· = List.replicate g.length none)) rfl).bind ?_
  rintro _ rfl
  refine Run.gives_lift (compare_ok .floating test _ (fun _ => false) 0 true ?_) (by simp)
  intro i x hx
  have hi : i < g.length := by
    have := (List.getElem?_eq_some_iff.1 hx).1
    simpa using this
  have hx' : x = none := List.eq_of_mem_replicate (List.mem_of_getElem? hx)
  subst hx'
  refine ⟨test[i]'(by omega), by rw [Nat.zero_add]; exact List.getElem?_eq_getElem (by omega), ?_⟩
  cases test[i]'(by omega) <;> rfl

/-- A vector that is too short is read out of bounds (unless an earlier entry is undefined already). -/
theorem bcverifier_short (M : Nat) (g : Rows α) (hg : InRange g) (sources : List Nat) (hs : ∀ s ∈ sources, s < g.length)
    (hfit : ∀ s ∈ sources, ∀ t < g.length, (shortestPaths g s t).length < M) (test : List (Option ℚ)) (hlen : test.length < g.length) :
    Run.Faults (verifier .floating M g sources test false) .outOfBounds := by
  unfold verifier
  refine (scores_gives M hg hs hfit).bind_faults ?_
  rintro _ rfl
  simp only [Bool.false_eq_true, if_false]
  refine (Run.gives_lift rfl (Q := (· = (expected g sources).map some)) rfl).bind_faults ?_
  rintro _ rfl
  have hel : test.length < (expected g sources).length := by simpa [expected] using hlen
  refine Run.faults_lift ?_
  have key : ∀ (sc : List (Option ℚ)) (k : Nat) (ok : Bool), k ≤ test.length → test.length < k + sc.length →
      ((sc.zipIdx k).map fun x => (x.2, x.1)).foldlM (compare .floating test) ok = .error .outOfBounds := by
    intro sc
    induction sc with
    | nil => intro k ok h1 h2; simp at h2; omega
    | cons x sc ih =>
      intro k ok h1 h2
      rw [List.zipIdx_cons, List.map_cons, List.foldlM_cons]
      simp only [List.length_cons] at h2
      by_cases hk : k < test.length
      · obtain ⟨ok', hok⟩ : ∃ ok', compare .floating test ok (k, x) = .ok ok' := by
          unfold compare
          rw [vget_of_lt hk, res_bind_ok]
          obtain ⟨b, hb⟩ : ∃ b, differs .floating test[k] x = .ok b := by
            cases test[k] <;> cases x <;> exact ⟨_, rfl⟩
          rw [hb, res_bind_ok]
          cases b <;> exact ⟨_, rfl⟩
        simp only []
        rw [hok, res_bind_ok]
        exact ih (k + 1) ok' (by omega) (by omega)
      · simp only []
        unfold compare
        rw [vget_of_ge (by simpa using hk)]
        rfl
  exact key _ 0 true (by omega) (by simpa using hel)

/-! ## Examples on the square with a tail of C40 -/

/-- All five vertices as sources: the betweenness `[0, 1, 1, 3, 0]` is rejected. -/
example : Run.Gives (verifier .floating (2 ^ 64) Brandes.exG (List.range 5) ([0, 1, 1, 3, 0].map some) false) (· = false) := by
  have := bcverifier_rejects_exact .floating (2 ^ 64) Brandes.exG Brandes.exG_inRange (List.range 5) (by decide)
    (fun s h t ht => Brandes.exG_fit s (List.mem_range.1 h) t ht) (v := 0) (w := 1) (by decide) (by decide) (by decide)
  have h : (List.range Brandes.exG.length).map (betweenness Brandes.exG (List.range 5)) = [0, 1, 1, 3, 0] := Brandes.exG_scores
  rw [h] at this
  exact this

/-- The hypotheses of `bcverifier_partial` hold: the vector the parallel routine returns is accepted. -/
example : Run.Gives (verifier .floating (2 ^ 64) Brandes.exG (List.range 5) ((expected Brandes.exG (List.range 5)).map some) false) (· = true) := by
  refine (bcverifier_partial (2 ^ 64) Brandes.exG Brandes.exG_inRange (List.range 5) (by decide) (fun s h t ht => Brandes.exG_fit s (List.mem_range.1 h) t ht)
    ((expected Brandes.exG (List.range 5)).map some) (by simp [expected])).mono fun r hr => hr.2 ?_
  intro v t hv ht y hy
  rw [List.getElem?_map, expected, List.getElem?_map, List.getElem?_range hv] at ht
  subst hy
  simp only [Option.map_some, Option.some.injEq] at ht
  subst ht
  simp

/-- The hypotheses of `bcverifier_accepts_all` hold with vertex 4, which has no neighbours, as the only source. -/
example : Run.Gives (verifier .floating (2 ^ 64) Brandes.exG [4] ([7, 7, 7, 7, 7].map some) true) (· = true) := by
  have hr : ∀ v, v ≠ 4 → ¬ Reachable Brandes.exG 4 v := by
    rintro v hv ⟨k, hk⟩
    have : ∀ {w k}, Walk Brandes.exG 4 w k → w = 4 := by
      intro w k hw
      induction hw with
      | nil => rfl
      | snoc _ e ih => subst ih; exact absurd e (by simp [Edge, nbrs, Brandes.exG])
    exact hv (this hk)
  refine bcverifier_accepts_all (2 ^ 64) Brandes.exG Brandes.exG_inRange (by decide) [4] (by decide)
    (fun s h t ht => Brandes.exG_fit s (by simp at h; subst h; decide) t ht) ?_ _ (by decide)
  intro v hv
  have h1 : ∀ v < 5, betweenness Brandes.exG [4] v = 0 := by decide +kernel
  unfold parScore
  rw [h1 v hv]
  by_cases h4 : v = 4
  · subst h4
    have : reached Brandes.exG 4 = 0 := by
      classical
      unfold reached
      rw [List.length_eq_zero_iff, List.filter_eq_nil_iff]
      intro t _ ht
      simp only [decide_eq_true_eq] at ht
      exact hr t ht.1 ht.2
    rw [this]; simp
  · rw [List.count_eq_zero_of_not_mem (by simpa using h4)]; simp

end NW.BcVerify
