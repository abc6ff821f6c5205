import Verif.Model.BcBench
import Verif.Lemmas.EdgeBetweenness
import Verif.Props.PrBench
import Verif.Props.BfsBench
import Verif.Props.Brandes
import Verif.Props.BrandesPar
import Verif.Props.BcExp
import Verif.Props.BcExpPar
import Verif.Props.BcVerify
import Mathlib.Data.List.ProdSigma

/-!
# C116: the betweenness benchmark

`bc` computes betweenness on the graph of the file with its edges turned round.
-/

namespace NW.BcBench
open Spec
open CcBench (Lib Loaded)
open BrandesPar (parScore)
open BcExp (Result Fits exact)

variable {L : Lib} {el : EdgeList Unit}

/-! ## The graph -/

theorem nbrs_graphOf {α : Type} (es : List (Nat × Nat × α)) {n u : Nat} (hu : u < n) : nbrs (graphOf es n) u = successors es u := by
  unfold nbrs graphOf
  rw [List.getD_eq_getElem?_getD, List.getElem?_map, List.getElem?_range hu]
  show ((successors es u).map fun v => (v, ())).map Prod.fst = _
  rw [List.map_map]
  exact List.map_id _

theorem nbrs_graphOf_ge {α : Type} (es : List (Nat × Nat × α)) {n u : Nat} (hu : n ≤ u) : nbrs (graphOf es n) u = [] := by
  unfold nbrs graphOf
  rw [List.getD_eq_getElem?_getD, List.getElem?_eq_none (by simpa using hu)]
  rfl

theorem length_graphOf {α : Type} (es : List (Nat × Nat × α)) (n : Nat) : (graphOf es n).length = n := by simp [graphOf]

theorem count_successors {α : Type} (es : List (Nat × Nat × α)) (u v : Nat) : (successors es u).count v = es.countP fun e => decide (e.1 = u ∧ e.2.1 = v) := by
  unfold successors
  induction es with
  | nil => rfl
  | cons e es ih =>
    rw [List.filter_cons, List.countP_cons]
    by_cases h : e.1 = u
    · simp only [h, decide_true, if_true, List.map_cons, List.count_cons, ih, true_and, beq_iff_eq, decide_eq_true_eq]
    · simp only [h, decide_false, Bool.false_eq_true, if_false, ih, false_and, Nat.add_zero]

theorem count_flipped {α : Type} (es : List (Nat × Nat × α)) (u v : Nat) : (successors (flipped es) u).count v = (successors es v).count u := by
  rw [count_successors, count_successors]
  unfold flipped
  rw [List.countP_map]
  refine List.countP_congr fun e _ => ?_
  simp [and_comm]

theorem reader_ok (hL : L.build.Ok) (he : Loaded el) : ∃ g, CcBench.adjacency L true 1 el = .ok g ∧ g.length = el.numVertices ∧ InRange g ∧
    ∀ u, (nbrs g u).Perm (nbrs (graphOf (flipped el.contents) el.numVertices) u) := by
  obtain ⟨g, h1, h2, h3⟩ := PrBench.rows_ok hL he
  have hn : ∀ u, (nbrs g u).Perm (nbrs (graphOf (flipped el.contents) el.numVertices) u) := by
    intro u
    by_cases hu : u < el.numVertices
    · rw [nbrs_graphOf _ hu]
      have := (h3 u hu).map Prod.fst
      unfold nbrs
      refine this.trans (List.Perm.of_eq ?_)
      unfold inEdges successors flipped
      rw [List.filter_map, List.map_map, List.map_map]
      rfl
    · rw [nbrs_graphOf_ge _ (by omega)]
      unfold nbrs
      rw [List.getD_eq_getElem?_getD, List.getElem?_eq_none (by omega)]
      exact .refl _
  refine ⟨g, h1, h2, ?_, hn⟩
  intro u v h
  have hm := (hn u).mem_iff.1 h
  by_cases hu : u < el.numVertices
  · rw [nbrs_graphOf _ hu] at hm
    unfold successors flipped at hm
    rw [List.filter_map, List.map_map] at hm
    obtain ⟨e, he', rfl⟩ := List.mem_map.1 hm
    rw [h2]
    exact (he.below e (List.mem_filter.1 he').1).1
  · rw [nbrs_graphOf_ge _ (by omega)] at hm
    cases hm

/-! ## One trial -/

theorem result_normalised {c : List ℚ} {r : List (Option ℚ)} (h : Result c true r) : Normalised c r := by
  unfold Result at h
  rwa [if_pos rfl] at h

theorem betweenness_nonneg (g : Rows Unit) (sources : List Nat) (v : Nat) : 0 ≤ betweenness g sources v := by
  unfold betweenness dependency throughFraction
  refine List.sum_nonneg fun x hx => ?_
  obtain ⟨s, -, rfl⟩ := List.mem_map.1 hx
  refine List.sum_nonneg fun y hy => ?_
  obtain ⟨t, -, rfl⟩ := List.mem_map.1 hy
  positivity

theorem parScore_nonneg (g : Rows Unit) (sources : List Nat) (v : Nat) : 0 ≤ parScore g sources v := by
  unfold BrandesPar.parScore
  have := betweenness_nonneg g sources v
  positivity

/-- The largest element of a list that is not empty. -/
theorem exists_max {c : List ℚ} (hc : c ≠ []) : ∃ b ∈ c, ∀ y ∈ c, y ≤ b := by
  cases c with
  | nil => exact absurd rfl hc
  | cons x xs => exact ⟨_, Brandes.foldl_max x xs⟩

theorem finish_is_normalised {c : List ℚ} (hc : c ≠ []) (h0 : ∀ y ∈ c, 0 ≤ y) : Normalised c (BrandesPar.finish true c) := by
  obtain ⟨b, hb, hmax⟩ := exists_max hc
  obtain ⟨f1, f2⟩ := BrandesPar.finish_normalised c
  refine ⟨b, hb, hmax, fun hne => f1 b hb (lt_of_le_of_ne (h0 b hb) (Ne.symm hne)) hmax, fun he => f2 fun y hy => ?_⟩
  exact le_antisymm (by rw [← he]; exact hmax y hy) (h0 y hy)

theorem normalised_length {c : List ℚ} {r : List (Option ℚ)} (h : Normalised c r) : r.length = c.length := by
  obtain ⟨b, -, -, h1, h2⟩ := h
  by_cases hb : b = 0
  · rw [h2 hb]; simp
  · rw [h1 hb]; simp

/-- The sources that a version uses. -/
def used (id n : Nat) (sources : List Nat) : List Nat := if id = 6 ∨ id = 8 then List.range n else sources

theorem centrality_exact {threads id : Nat} (hid : id ∈ [1, 6, 7]) {g : Rows Unit} (hg : InRange g) (hn : 0 < g.length) (hinf : g.length < null) {sources : List Nat}
    (hs : ∀ s ∈ sources, s < g.length) (hfit : Fits double g (List.range g.length)) :
    Run.Gives (centrality threads id g sources) (Normalised ((List.range g.length).map (betweenness g (used id g.length sources)))) := by
  have hf : Fits double g sources := fun s h => hfit s (List.mem_range.2 (hs s h))
  have hsz : ∀ l, Fits double g l → Fits sizeT g l := fun l h s hs t ht => lt_of_lt_of_le (h s hs t ht) (by decide)
  simp only [List.mem_cons, List.not_mem_nil, or_false] at hid
  rcases hid with rfl | rfl | rfl
  · exact (BcExp.bc2_v1_correct double null g hg hn (by omega) sources hs hf true).mono fun r hr => result_normalised hr
  · refine (Brandes.brandes_bc_normalised sizeT g hg (fun s hs => hsz _ hfit s (List.mem_range.2 hs)) hn).mono fun r hr => ?_
    obtain ⟨b, b1, b2, b3, b4⟩ := hr
    have e : Brandes.exactScores g = (List.range g.length).map (betweenness g (List.range g.length)) := rfl
    rw [e] at b1 b2 b3
    exact ⟨b, b1, b2, b3, fun h => by rw [b4 h]; simp⟩
  · exact (BcExp.approx_brandes_correct sizeT g hg hn sources hs (hsz _ hf)).mono fun r hr => result_normalised hr

theorem parallel_ok {threads : Nat} (h0 : 0 < threads) (h1 : threads < 2 ^ 31) {g : Rows Unit} (hg : InRange g) (hn : 0 < g.length) (hinf : g.length < null) {sources : List Nat}
    (hs : ∀ s ∈ sources, s < g.length) (hfit : Fits double g sources) :
    Run.Gives (parallel threads g sources) (Normalised ((List.range g.length).map (parScore g sources))) := by
  obtain ⟨k, e1, e2⟩ := BfsBench.roundedBins_ok h0 h1
  unfold parallel
  refine (Run.gives_lift (Q := (· = k)) e1 rfl).bind ?_
  rintro _ rfl
  refine (BfsBench.gives_fromStart (BrandesPar.brandes_bc_parallel_partial (args g _) rfl hg hn e2 hinf sources hs hfit)).bind ?_
  rintro _ rfl
  refine Run.gives_pure (finish_is_normalised ?_ ?_)
  · simpa using Nat.pos_iff_ne_zero.1 hn
  · intro y hy
    obtain ⟨v, -, rfl⟩ := List.mem_map.1 hy
    exact parScore_nonneg _ _ _

theorem centrality_over {threads id : Nat} (hid : id ∈ [0, 3] ∨ id ∈ [4, 5, 8] ∧ 0 < threads ∧ threads < 2 ^ 31) {g : Rows Unit} (hg : InRange g) (hn : 0 < g.length) (hinf : g.length < null)
    {sources : List Nat} (hs : ∀ s ∈ sources, s < g.length) (hfit : Fits double g (List.range g.length)) :
    Run.Gives (centrality threads id g sources) (Normalised ((List.range g.length).map (parScore g (used id g.length sources)))) := by
  have hf : Fits double g sources := fun s h => hfit s (List.mem_range.2 (hs s h))
  simp only [List.mem_cons, List.not_mem_nil, or_false] at hid
  rcases hid with (rfl | rfl) | ⟨rfl | rfl | rfl, h0, h1⟩
  · exact (BcExp.bc2_v0_partial double null g hg hn (by omega) sources hs hf true).mono fun r hr => result_normalised hr
  · exact (BfsBench.gives_fromStart (BcExpPar.bc2_v3_v4_partial (args g 32) rfl hg hn (show 0 < 32 by decide) hinf sources hs hf true)).mono fun r hr => result_normalised hr
  · obtain ⟨k, e1, e2⟩ := BfsBench.roundedBins_ok h0 h1
    show Run.Gives (do
      let bins ← Run.lift (BfsBench.roundedBins threads)
      BfsBench.fromStart (BcExpPar.launch (args g bins) sources) (Serial (BcExpPar.XStep (args g bins)) (BcExpPar.finish true))) _
    refine (Run.gives_lift (Q := (· = k)) e1 rfl).bind ?_
    rintro _ rfl
    exact (BfsBench.gives_fromStart (BcExpPar.bc2_v3_v4_partial (args g _) rfl hg hn e2 hinf sources hs hf true)).mono fun r hr => result_normalised hr
  · exact parallel_ok h0 h1 hg hn hinf hs hf
  · exact parallel_ok h0 h1 hg hn hinf (fun s h => List.mem_range.1 h) hfit

/-- The verifier ends, and it accepts the scores of `parScore`. -/
theorem verifier_ends {g : Rows Unit} (hg : InRange g) (hn : 0 < g.length) {sources : List Nat} (hs : ∀ s ∈ sources, s < g.length) (hfit : Fits double g sources) {test : List (Option ℚ)}
    (hlen : test.length = g.length) :
    Run.Gives (BcVerify.verifier .floating double g sources test true) fun ok => Normalised ((List.range g.length).map (parScore g sources)) test → ok = true := by
  obtain ⟨b, hb, hmax⟩ := exists_max (c := (List.range g.length).map (parScore g sources)) (by simpa using Nat.pos_iff_ne_zero.1 hn)
  obtain ⟨m, hm, rfl⟩ := List.mem_map.1 hb
  have hm := List.mem_range.1 hm
  have hmax' : ∀ v < g.length, parScore g sources v ≤ parScore g sources m := fun v hv => hmax _ (List.mem_map.2 ⟨v, List.mem_range.2 hv, rfl⟩)
  by_cases h0 : parScore g sources m = 0
  · refine (BcVerify.bcverifier_accepts_all double g hg hn sources hs hfit (fun v hv => ?_) test (by omega)).mono fun ok h _ => h
    exact le_antisymm (by rw [← h0]; exact hmax' v hv) (parScore_nonneg _ _ _)
  · refine (BcVerify.bcverifier_normalised_partial double g hg sources hs hfit hm hmax' h0 test (by omega)).mono fun ok h hN => h.2 ?_
    obtain ⟨c, hc, hcm, c1, c2⟩ := hN
    have hcb : c = parScore g sources m := le_antisymm (hmax c hc) (hcm _ hb)
    rw [hcb] at c1
    have := c1 h0
    intro v t hv ht y hy
    rw [this, List.getElem?_map, List.getElem?_map, List.getElem?_range hv] at ht
    subst hy
    simp only [Option.map_some, Option.some.injEq] at ht
    rw [ht]
    norm_num

/-! ## All trials -/

/-- The trials that are to be made: every number of threads with every version and every group of sources. -/
theorem slices_eq (iterations : Nat) : ∀ (groups : List (List Nat)), (∀ c ∈ groups, c.length = iterations) →
    (List.range groups.length).map (fun i => slice iterations i groups.flatten) = groups := by
  intro groups h
  refine List.ext_getElem (by simp) fun i hi hi' => ?_
  simp only [List.getElem_map, List.getElem_range]
  clear hi
  induction groups generalizing i with
  | nil => simp at hi'
  | cons c l ih =>
    have hc := h c (by simp)
    cases i with
    | zero =>
      unfold slice
      simp [hc]
    | succ i =>
      have := ih (fun c hc => h c (List.mem_cons_of_mem _ hc)) i (by simpa using hi')
      rw [List.getElem_cons_succ, ← this]
      unfold slice
      have e : (c ++ l.flatten).drop iterations = l.flatten := by rw [← hc, List.drop_left]
      rw [List.flatten_cons, Nat.mul_succ, Nat.add_comm, ← List.drop_drop, e]

theorem plan_eq (threads ids : List Nat) (iterations : Nat) (groups : List (List Nat)) (h : ∀ c ∈ groups, c.length = iterations) :
    plan threads ids groups.length iterations groups.flatten = threads ×ˢ ids ×ˢ groups := by
  show _ = threads.flatMap fun t => (ids.flatMap fun i => groups.map fun s => (i, s)).map fun x => (t, x)
  have e : ∀ t i : Nat, (List.range groups.length).map (fun k => (t, i, slice iterations k groups.flatten)) = groups.map fun s => (t, i, s) := by
    intro t i
    conv_rhs => rw [← slices_eq iterations groups h]
    rw [List.map_map]
    rfl
  unfold plan
  simp [List.map_flatMap, Function.comp_def, e]

theorem main_ok {g : Rows Unit} (h1 : CcBench.adjacency L true 1 el = .ok g) (threads ids : List Nat) (iterations : Nat) (groups : List (List Nat)) (hlen : ∀ c ∈ groups, c.length = iterations)
    {Q : Trial → Prop} (h : ∀ t ∈ threads, ∀ i ∈ ids, ∀ c ∈ groups, Run.Gives (trial g t i c) fun r => (r.threads, r.id, r.sources) = (t, i, c) ∧ Q r) :
    Run.Gives (main L threads ids groups.length iterations groups.flatten el) fun ts => ts.map (fun t => (t.threads, t.id, t.sources)) = threads ×ˢ ids ×ˢ groups ∧ ∀ t ∈ ts, Q t := by
  unfold main
  refine (Run.gives_lift (Q := (· = g)) h1 rfl).bind ?_
  rintro _ rfl
  rw [plan_eq _ _ _ _ hlen]
  refine Run.gives_foldlM (I := fun (pre : List (Nat × Nat × List Nat)) (ts : List Trial) => ts.map (fun t => (t.threads, t.id, t.sources)) = pre ∧ ∀ t ∈ ts, Q t) ⟨rfl, by simp⟩ ?_
  rintro pre ⟨t, i, c⟩ post hl ts ⟨i1, i2⟩
  have hmem : (t, i, c) ∈ threads ×ˢ ids ×ˢ groups := by rw [hl]; simp
  have hmem := List.mem_product.1 hmem
  have hmem' := List.mem_product.1 hmem.2
  refine (h t hmem.1 i hmem'.1 c hmem'.2).bind fun r ⟨r1, r2⟩ => Run.gives_pure ⟨?_, ?_⟩
  · rw [List.map_append, i1, List.map_singleton, r1]
  · intro t ht
    rcases List.mem_append.1 ht with ht | ht
    · exact i2 t ht
    · rw [List.mem_singleton.1 ht]; exact r2

theorem trial_ok {threads id : Nat} {g : Rows Unit} (hg : InRange g) (hn : 0 < g.length) {sources : List Nat} (hs : ∀ s ∈ sources, s < g.length)
    (hfit : Fits double g (List.range g.length)) {c : List ℚ} (hc : c.length = g.length) (h : Run.Gives (centrality threads id g sources) (Normalised c)) :
    Run.Gives (trial g threads id sources) fun r => (r.threads, r.id, r.sources) = (threads, id, sources) ∧ Normalised c r.scores ∧
      (c = (List.range g.length).map (parScore g sources) → r.accepted = true) := by
  have hf : Fits double g sources := fun s h => hfit s (List.mem_range.2 (hs s h))
  unfold trial
  refine h.bind fun sc hsc => ?_
  refine (verifier_ends hg hn hs hf (test := sc) (by rw [normalised_length hsc, hc])).bind fun ok hok => Run.gives_pure ⟨rfl, hsc, fun e => hok ?_⟩
  rw [← e]; exact hsc

/-! ## The benchmark -/

/-- The scores that the versions 0, 3, 4, 5 and 8 compute: for every source, the number of vertices that can be reached from it is added to its own score. -/
noncomputable def ownScores {α : Type} (es : List (Nat × Nat × α)) (n : Nat) (sources : List Nat) : List ℚ := (List.range n).map (parScore (graphOf es n) sources)

theorem nbrs_flip {α : Type} {es : List (Nat × Nat × α)} {n : Nat} (hb : EndpointsBelow n es) (a b : Nat) :
    (nbrs (graphOf (flipped es) n) a).count b = (nbrs (graphOf es n) b).count a := by
  have out : ∀ {u w : Nat}, n ≤ u ∨ n ≤ w → (successors es u).count w = 0 := by
    intro u w h
    rw [count_successors, List.countP_eq_zero]
    intro e he hc
    have := hb e he
    simp only [decide_eq_true_eq] at hc
    omega
  by_cases ha : a < n <;> by_cases hb' : b < n
  · rw [nbrs_graphOf _ ha, nbrs_graphOf _ hb', count_flipped]
  · rw [nbrs_graphOf _ ha, nbrs_graphOf_ge _ (by omega), count_flipped, out (Or.inl (by omega)), List.count_nil]
  · rw [nbrs_graphOf_ge _ (Nat.le_of_not_lt ha), nbrs_graphOf _ hb', out (Or.inr (by omega)), List.count_nil]
  · rw [nbrs_graphOf_ge _ (Nat.le_of_not_lt ha), nbrs_graphOf_ge _ (Nat.le_of_not_lt hb'), List.count_nil, List.count_nil]

theorem inRange_graphOf {α : Type} {es : List (Nat × Nat × α)} {n : Nat} (hb : EndpointsBelow n es) : InRange (graphOf es n) := by
  intro u v h
  change v ∈ nbrs (graphOf es n) u at h
  by_cases hu : u < n
  · rw [nbrs_graphOf _ hu] at h
    obtain ⟨e, he, rfl⟩ := List.mem_map.1 h
    rw [length_graphOf]
    exact (hb e (List.mem_filter.1 he).1).2
  · rw [nbrs_graphOf_ge _ (by omega)] at h
    cases h

theorem below_flipped {α : Type} {es : List (Nat × Nat × α)} {n : Nat} (hb : EndpointsBelow n es) : EndpointsBelow n (flipped es) := by
  intro e he
  obtain ⟨e', h', rfl⟩ := List.mem_map.1 he
  exact ⟨(hb e' h').2, (hb e' h').1⟩

/-- The graph that the benchmark builds, in terms of the file. -/
theorem built (hL : L.build.Ok) (he : Loaded el) (hfit : FewPaths double el.contents el.numVertices (List.range el.numVertices)) :
    ∃ g, CcBench.adjacency L true 1 el = .ok g ∧ g.length = el.numVertices ∧ InRange g ∧ Fits double g (List.range g.length) ∧
      (∀ sources, (List.range g.length).map (betweenness g sources) = edgeScores (flipped el.contents) el.numVertices sources) ∧
      (∀ sources, (List.range g.length).map (parScore g sources) = ownScores (flipped el.contents) el.numVertices sources) := by
  obtain ⟨g, h1, h2, h3, h4⟩ := reader_ok hL he
  have hl : g.length = (graphOf (flipped el.contents) el.numVertices).length := by rw [h2, length_graphOf]
  refine ⟨g, h1, h2, h3, ?_, ?_, ?_⟩
  · intro s hs t ht
    have e1 := (shortestPaths_perm hl h4 s t).length_eq
    have e2 := (shortestPaths_flip (g := graphOf (flipped el.contents) el.numVertices) (h := graphOf el.contents el.numVertices) (by simp [length_graphOf]) (nbrs_flip he.below) s t).length_eq
    rw [e1, e2, List.length_map]
    exact hfit t (List.mem_range.2 (by omega)) s (by have := List.mem_range.1 hs; omega)
  · intro sources
    unfold edgeScores
    rw [h2]
    exact List.map_congr_left fun v _ => betweenness_congr hl h4 sources v
  · intro sources
    unfold ownScores
    rw [h2]
    refine List.map_congr_left fun v hv => ?_
    have hv := List.mem_range.1 hv
    rw [← BrandesPar.sum_dependency h3 (by omega), ← BrandesPar.sum_dependency (inRange_graphOf (below_flipped he.below)) (by rw [length_graphOf]; exact hv)]
    congr 1
    exact List.map_congr_left fun s _ => dependency_congr hl h4 s v

/-- C116, in part. The versions 1, 6 and 7 report, for every number of threads, version and group of sources, the betweenness with respect to the sources (all vertices for version 6), divided by the largest
one, of the graph in the file *with its edges turned round*. -/
theorem bench_correct_partial (hL : L.build.Ok) (he : Loaded el) (h0 : 0 < el.numVertices) (h1 : el.numVertices < 2 ^ 32 - 1)
    (hfit : FewPaths (2 ^ 53) el.contents el.numVertices (List.range el.numVertices)) (threads ids : List Nat) (hid : ∀ i ∈ ids, i ∈ [1, 6, 7]) (iterations : Nat) (groups : List (List Nat))
    (hlen : ∀ c ∈ groups, c.length = iterations) (hs : ∀ c ∈ groups, ∀ s ∈ c, s < el.numVertices) :
    Run.Gives (main L threads ids groups.length iterations groups.flatten el) fun ts => ts.map (fun t => (t.threads, t.id, t.sources)) = threads ×ˢ ids ×ˢ groups ∧
      ∀ t ∈ ts, Normalised (edgeScores (flipped el.contents) el.numVertices (if t.id = 6 then List.range el.numVertices else t.sources)) t.scores := by
  obtain ⟨g, g1, g2, g3, g4, g5, -⟩ := built hL he hfit
  refine main_ok g1 threads ids iterations groups hlen fun t ht i hi c hc => ?_
  have hsc : ∀ s ∈ c, s < g.length := by rw [g2]; exact hs c hc
  refine (trial_ok g3 (by omega) hsc g4 (by simp) (centrality_exact (threads := t) (hid i hi) g3 (by omega) (by unfold null; omega) hsc g4)).mono fun r hr => ⟨hr.1, ?_⟩
  obtain ⟨r1, r2, -⟩ := hr
  have e : r.id = i ∧ r.sources = c := by simpa using (Prod.mk.inj r1).2
  rw [e.1, e.2]
  rw [g5, g2] at r2
  have hi8 : i ≠ 8 := by rintro rfl; exact absurd (hid 8 hi) (by decide)
  simpa [used, hi8] using r2

theorem flipped_flipped {α : Type} (es : List (Nat × Nat × α)) : flipped (flipped es) = es := by
  unfold flipped
  rw [List.map_map]
  exact List.map_id _

theorem edgeScores_all_flipped {α : Type} {es : List (Nat × Nat × α)} {n : Nat} (hb : EndpointsBelow n es) : edgeScores (flipped es) n (List.range n) = edgeScores es n (List.range n) := by
  unfold edgeScores
  refine List.map_congr_left fun v _ => ?_
  have := betweenness_flip (g := graphOf (flipped es) n) (h := graphOf es n) (by simp [length_graphOf]) (nbrs_flip hb) v
  rwa [length_graphOf, length_graphOf] at this

/-- C116. Version 6, which takes every vertex as a source, reports the betweenness of the graph in the file. -/
theorem bench_exact_correct (hL : L.build.Ok) (he : Loaded el) (h0 : 0 < el.numVertices) (h1 : el.numVertices < 2 ^ 32 - 1)
    (hfit : FewPaths (2 ^ 53) el.contents el.numVertices (List.range el.numVertices)) (threads : List Nat) (iterations : Nat) (groups : List (List Nat))
    (hlen : ∀ c ∈ groups, c.length = iterations) (hs : ∀ c ∈ groups, ∀ s ∈ c, s < el.numVertices) :
    Run.Gives (main L threads [6] groups.length iterations groups.flatten el) fun ts => ts.map (fun t => (t.threads, t.id, t.sources)) = threads ×ˢ [6] ×ˢ groups ∧
      ∀ t ∈ ts, Normalised (edgeScores el.contents el.numVertices (List.range el.numVertices)) t.scores := by
  refine (bench_correct_partial hL he h0 h1 hfit threads [6] (by simp) iterations groups hlen hs).mono fun ts ⟨t1, t2⟩ => ⟨t1, fun t ht => ?_⟩
  have hm : (t.threads, t.id, t.sources) ∈ threads ×ˢ [6] ×ˢ groups := by rw [← t1]; exact List.mem_map.2 ⟨t, ht, rfl⟩
  have h6 : t.id = 6 := by simpa using (List.mem_product.1 (List.mem_product.1 hm).2).1
  have := t2 t ht
  rwa [if_pos h6, edgeScores_all_flipped he.below] at this

/-- C116. If there are as many edges from `u` to `v` in the file as from `v` to `u`, for all `u` and `v`, the versions 1, 6 and 7 report the betweenness of the graph in the file. -/
theorem bench_correct_symmetric (hL : L.build.Ok) (he : Loaded el) (h0 : 0 < el.numVertices) (h1 : el.numVertices < 2 ^ 32 - 1)
    (hfit : FewPaths (2 ^ 53) el.contents el.numVertices (List.range el.numVertices)) (hsym : ∀ u v, (successors el.contents u).count v = (successors el.contents v).count u)
    (threads ids : List Nat) (hid : ∀ i ∈ ids, i ∈ [1, 6, 7]) (iterations : Nat) (groups : List (List Nat))
    (hlen : ∀ c ∈ groups, c.length = iterations) (hs : ∀ c ∈ groups, ∀ s ∈ c, s < el.numVertices) :
    Run.Gives (main L threads ids groups.length iterations groups.flatten el) fun ts => ts.map (fun t => (t.threads, t.id, t.sources)) = threads ×ˢ ids ×ˢ groups ∧
      ∀ t ∈ ts, Normalised (edgeScores el.contents el.numVertices (if t.id = 6 then List.range el.numVertices else t.sources)) t.scores := by
  have e : ∀ sources, edgeScores (flipped el.contents) el.numVertices sources = edgeScores el.contents el.numVertices sources := by
    intro sources
    refine List.map_congr_left fun v _ => betweenness_congr (by simp [length_graphOf]) (fun u => ?_) sources v
    by_cases hu : u < el.numVertices
    · rw [nbrs_graphOf _ hu, nbrs_graphOf _ hu, List.perm_iff_count]
      intro w
      rw [count_flipped, hsym]
    · rw [nbrs_graphOf_ge _ (by omega), nbrs_graphOf_ge _ (by omega)]
  refine (bench_correct_partial hL he h0 h1 hfit threads ids hid iterations groups hlen hs).mono fun ts ⟨t1, t2⟩ => ⟨t1, fun t ht => ?_⟩
  have := t2 t ht
  rwa [e] at this

/-- C116, in part. The versions 0, 3, 4, 5 and 8 add to the score of every source the number of vertices reached from it; the verifier does the same, and it accepts (except for version 8, which does not use
the sources that the verifier is given). -/
theorem bench_sources_counted (hL : L.build.Ok) (he : Loaded el) (h0 : 0 < el.numVertices) (h1 : el.numVertices < 2 ^ 32 - 1)
    (hfit : FewPaths (2 ^ 53) el.contents el.numVertices (List.range el.numVertices)) (threads ids : List Nat) (ht : ∀ t ∈ threads, 0 < t ∧ t < 2 ^ 31) (hid : ∀ i ∈ ids, i ∈ [0, 3, 4, 5, 8])
    (iterations : Nat) (groups : List (List Nat)) (hlen : ∀ c ∈ groups, c.length = iterations) (hs : ∀ c ∈ groups, ∀ s ∈ c, s < el.numVertices) :
    Run.Gives (main L threads ids groups.length iterations groups.flatten el) fun ts => ts.map (fun t => (t.threads, t.id, t.sources)) = threads ×ˢ ids ×ˢ groups ∧
      ∀ t ∈ ts, Normalised (ownScores (flipped el.contents) el.numVertices (if t.id = 8 then List.range el.numVertices else t.sources)) t.scores ∧ (t.id ≠ 8 → t.accepted = true) := by
  obtain ⟨g, g1, g2, g3, g4, -, g5⟩ := built hL he hfit
  refine main_ok g1 threads ids iterations groups hlen fun t htt i hi c hc => ?_
  have hsc : ∀ s ∈ c, s < g.length := by rw [g2]; exact hs c hc
  have hi' : i ∈ [0, 3] ∨ i ∈ [4, 5, 8] ∧ 0 < t ∧ t < 2 ^ 31 := by
    have := hid i hi
    have := ht t htt
    simp only [List.mem_cons, List.not_mem_nil, or_false] at *
    omega
  have hi6 : i ≠ 6 := by rintro rfl; exact absurd (hid 6 hi) (by decide)
  refine (trial_ok g3 (by omega) hsc g4 (by simp) (centrality_over (threads := t) hi' g3 (by omega) (by unfold null; omega) hsc g4)).mono fun r ⟨r1, r2, r3⟩ => ⟨r1, ?_, ?_⟩
  all_goals have e : r.id = i ∧ r.sources = c := by simpa using (Prod.mk.inj r1).2
  · rw [e.1, e.2]
    rw [g5, g2] at r2
    simpa [used, hi6] using r2
  · rw [e.1]
    exact fun h8 => r3 (by simp [used, hi6, h8])

/-! ## Wrong answers -/

/-- The edges 0 → 1 → 2. -/
def exLine : EdgeList Unit := ⟨3, false, [0, 1], [1, 2], [(), ()]⟩

/-- The edges 0 - 1 - 2, both ways. -/
def exPath : EdgeList Unit := ⟨3, false, [0, 1, 1, 2], [1, 0, 2, 1], [(), (), (), ()]⟩

theorem exLine_loaded : Loaded exLine := ⟨⟨rfl, rfl⟩, by simp [EndpointsBelow, exLine, EdgeList.contents, EdgeList.numVertices], by decide⟩

theorem exPath_loaded : Loaded exPath := ⟨⟨rfl, rfl⟩, by simp [EndpointsBelow, exPath, EdgeList.contents, EdgeList.numVertices], by decide⟩

theorem exLine_few : FewPaths (2 ^ 53) exLine.contents exLine.numVertices (List.range exLine.numVertices) := by
  intro s hs t ht
  have h : ∀ s ∈ List.range 3, ∀ t ∈ List.range 3, (shortestPaths (graphOf exLine.contents 3) s t).length ≤ 1 := by decide +kernel
  have := h s hs t (List.mem_range.2 ht)
  have e : exLine.numVertices = 3 := rfl
  rw [e]
  omega

theorem exPath_few : FewPaths (2 ^ 53) exPath.contents exPath.numVertices (List.range exPath.numVertices) := by
  intro s hs t ht
  have h : ∀ s ∈ List.range 3, ∀ t ∈ List.range 3, (shortestPaths (graphOf exPath.contents 3) s t).length ≤ 1 := by decide +kernel
  have := h s hs t (List.mem_range.2 ht)
  have e : exPath.numVertices = 3 := rfl
  rw [e]
  omega

theorem normalised_unique {c : List ℚ} {r : List (Option ℚ)} (h : Normalised c r) {b : ℚ} (hb : b ∈ c) (hm : ∀ y ∈ c, y ≤ b) :
    r = if b = 0 then List.replicate c.length none else c.map fun y => some (y / b) := by
  obtain ⟨b', h1, h2, h3, h4⟩ := h
  have : b' = b := le_antisymm (hm _ h1) (h2 _ hb)
  subst this
  split_ifs with h0
  · exact h4 h0
  · exact h3 h0

/-- C116, against the property: in the graph 0 → 1 → 2 the vertex 1 lies on the only path from 0 to 2, but with the source 0 the versions 1 and 7 report that no score is a number, because they search the
graph with its edges turned round. -/
theorem bench_backwards (hL : L.build.Ok) (id : Nat) (hid : id ∈ [1, 7]) :
    edgeScores exLine.contents 3 [0] = [0, 1, 0] ∧ Run.Gives (main L [1] [id] 1 1 [0] exLine) fun ts => ts.map Trial.scores = [[none, none, none]] := by
  refine ⟨by decide +kernel, ?_⟩
  refine (bench_correct_partial hL exLine_loaded (by decide) (by decide) exLine_few [1] [id] (fun i hi => ?_) 1 [[0]] (by simp) (by simp [exLine, EdgeList.numVertices])).mono fun ts ⟨t1, t2⟩ => ?_
  · simp only [List.mem_cons, List.not_mem_nil, or_false] at hi hid ⊢
    omega
  · obtain ⟨t, rfl⟩ : ∃ t, ts = [t] := List.length_eq_one_iff.1 (by simpa using congrArg List.length t1)
    have e : t.id = id ∧ t.sources = [0] := by
      have : [(t.threads, t.id, t.sources)] = [(1, id, [0])] := t1
      simp only [List.cons.injEq, Prod.mk.injEq, and_true] at this
      exact this.2
    have h := t2 t (by simp)
    have h6 : t.id ≠ 6 := by rw [e.1]; rintro rfl; revert hid; decide
    rw [if_neg h6, e.2, show edgeScores (flipped exLine.contents) exLine.numVertices [0] = [0, 0, 0] by decide +kernel] at h
    have := normalised_unique h (b := 0) (by simp) (by simp)
    simpa using this

theorem ownScores_eq {α : Type} {es : List (Nat × Nat × α)} {n : Nat} (hb : EndpointsBelow n es) (sources : List Nat) :
    ownScores es n sources = (List.range n).map fun v => (sources.map fun s => dependency (graphOf es n) s v).sum := by
  refine List.map_congr_left fun v hv => ?_
  rw [BrandesPar.sum_dependency (inRange_graphOf hb) (by rw [length_graphOf]; exact List.mem_range.1 hv)]

/-- C116, against the property: in the graph 0 - 1 - 2 with the source 0 the middle vertex has the largest score and the others have none; but the versions 0, 3, 4 and 5 report that the source has
the largest score, and the verifier accepts this. -/
theorem bench_wrong_ranking (hL : L.build.Ok) (id : Nat) (hid : id ∈ [0, 3, 4, 5]) :
    edgeScores exPath.contents 3 [0] = [0, 1, 0] ∧
      Run.Gives (main L [1] [id] 1 1 [0] exPath) fun ts => ts.map (fun t => (t.scores, t.accepted)) = [([some 1, some (1 / 2), some 0], true)] := by
  refine ⟨by decide +kernel, ?_⟩
  refine (bench_sources_counted hL exPath_loaded (by decide) (by decide) exPath_few [1] [id] (by simp) (fun i hi => ?_) 1 [[0]] (by simp) (by simp [exPath, EdgeList.numVertices])).mono
    fun ts ⟨t1, t2⟩ => ?_
  · simp only [List.mem_cons, List.not_mem_nil, or_false] at hi hid ⊢
    omega
  · obtain ⟨t, rfl⟩ : ∃ t, ts = [t] := List.length_eq_one_iff.1 (by simpa using congrArg List.length t1)
    have e : t.id = id ∧ t.sources = [0] := by
      have : [(t.threads, t.id, t.sources)] = [(1, id, [0])] := t1
      simp only [List.cons.injEq, Prod.mk.injEq, and_true] at this
      exact this.2
    obtain ⟨h, ha⟩ := t2 t (by simp)
    have h8 : t.id ≠ 8 := by rw [e.1]; rintro rfl; revert hid; decide
    rw [if_neg h8, e.2, ownScores_eq (below_flipped exPath_loaded.below),
      show ((List.range exPath.numVertices).map fun v => ([0].map fun s => dependency (graphOf (flipped exPath.contents) exPath.numVertices) s v).sum) = [2, 1, 0] by decide +kernel] at h
    have := normalised_unique h (b := 2) (by simp) (by simp)
    rw [List.map_singleton, this, ha h8]
    norm_num

/-- C116, against the property: version 8, with every vertex of the graph 0 - 1 - 2 as a source, gives half the largest score to the two ends, through which no path leads. -/
theorem bench_ends_counted (hL : L.build.Ok) :
    edgeScores exPath.contents 3 [0, 1, 2] = [0, 2, 0] ∧ Run.Gives (main L [1] [8] 1 1 [0] exPath) fun ts => ts.map Trial.scores = [[some (1 / 2), some 1, some (1 / 2)]] := by
  refine ⟨by decide +kernel, ?_⟩
  refine (bench_sources_counted hL exPath_loaded (by decide) (by decide) exPath_few [1] [8] (by simp) (by simp) 1 [[0]] (by simp) (by simp [exPath, EdgeList.numVertices])).mono
    fun ts ⟨t1, t2⟩ => ?_
  obtain ⟨t, rfl⟩ : ∃ t, ts = [t] := List.length_eq_one_iff.1 (by simpa using congrArg List.length t1)
  have e : t.id = 8 ∧ t.sources = [0] := by
    have : [(t.threads, t.id, t.sources)] = [(1, 8, [0])] := t1
    simp only [List.cons.injEq, Prod.mk.injEq, and_true] at this
    exact this.2
  obtain ⟨h, -⟩ := t2 t (by simp)
  rw [if_pos e.1, ownScores_eq (below_flipped exPath_loaded.below),
    show ((List.range exPath.numVertices).map fun v => ((List.range exPath.numVertices).map fun s => dependency (graphOf (flipped exPath.contents) exPath.numVertices) s v).sum) = [2, 4, 2] by decide +kernel] at h
  have := normalised_unique h (b := 4) (by simp) (by norm_num)
  rw [List.map_singleton, this]
  norm_num

/-- C116, against the property: with a version that does not exist, the verifier reads scores that are not there. -/
theorem bench_unknown_version (hL : L.build.Ok) (he : Loaded el) (h0 : 0 < el.numVertices) (hfit : FewPaths (2 ^ 53) el.contents el.numVertices (List.range el.numVertices))
    (t id : Nat) (hid : 9 ≤ id) (c : List Nat) (hs : ∀ s ∈ c, s < el.numVertices) : Run.Faults (main L [t] [id] 1 c.length c el) .outOfBounds := by
  obtain ⟨g, g1, g2, g3, g4, -, -⟩ := built hL he hfit
  have hsc : ∀ s ∈ c, s < g.length := by rw [g2]; exact hs
  have hf : Fits double g c := fun s h => g4 s (List.mem_range.2 (hsc s h))
  have hne : g.length ≠ 0 := by omega
  obtain ⟨k, rfl⟩ : ∃ k, id = k + 9 := ⟨id - 9, by omega⟩
  unfold main
  refine (Run.gives_lift (Q := (· = g)) g1 rfl).bind_faults ?_
  rintro _ rfl
  have hp := plan_eq [t] [k + 9] c.length [c] (by simp)
  rw [List.flatten_singleton] at hp
  rw [show [c].length = 1 from rfl] at hp
  rw [hp, show [t] ×ˢ [k + 9] ×ˢ [c] = [(t, k + 9, c)] from rfl, List.foldlM_cons]
  refine Run.Faults.bind (Run.Faults.bind ?_)
  unfold trial
  refine (show Run.Gives (centrality t (k + 9) _ c) (· = []) from Run.gives_pure rfl).bind_faults ?_
  rintro _ rfl
  refine Run.Faults.bind ?_
  unfold BcVerify.verifier
  refine (BcVerify.scores_gives double g3 hsc hf).bind_faults ?_
  rintro _ rfl
  obtain ⟨x, xs, hx⟩ : ∃ x xs, BcVerify.expected _ c = x :: xs := List.exists_cons_of_ne_nil (by simpa [BcVerify.expected] using hne)
  rw [hx]
  refine (Run.gives_lift rfl (Q := (· = _)) rfl).bind_faults ?_
  rintro _ rfl
  refine Run.faults_lift ?_
  simp only [List.map_cons, List.zipIdx_cons, List.foldlM_cons]
  rfl

/-! ## The hypotheses are met -/

/-- A file that is not symmetric, with two groups of two sources, two numbers of threads and three versions. -/
example : Run.Gives (main CcBench.exLib [1, 8] [1, 6, 7] 2 2 [0, 1, 2, 2] exLine) fun ts => ts.length = 12 ∧
    ∀ t ∈ ts, t.id = 1 → t.sources = [2, 2] → t.scores = [some 0, some 1, some 0] := by
  refine (bench_correct_partial CcBench.exLib_conforms.build exLine_loaded (by decide) (by decide) exLine_few [1, 8] [1, 6, 7] (by simp) 2 [[0, 1], [2, 2]] (by simp)
    (by simp [exLine, EdgeList.numVertices])).mono fun ts ⟨t1, t2⟩ => ⟨by simpa using congrArg List.length t1, fun t ht hid hs => ?_⟩
  have h := t2 t ht
  rw [if_neg (by rw [hid]; decide), hs, show edgeScores (flipped exLine.contents) exLine.numVertices [2, 2] = [0, 2, 0] by decide +kernel] at h
  have := normalised_unique h (b := 2) (by simp) (by simp)
  rw [this]
  norm_num

example : Run.Gives (main CcBench.exLib [4] [6] 1 1 [0] exLine) fun ts => ∀ t ∈ ts, Normalised (edgeScores exLine.contents 3 [0, 1, 2]) t.scores :=
  (bench_exact_correct CcBench.exLib_conforms.build exLine_loaded (by decide) (by decide) exLine_few [4] 1 [[0]] (by simp) (by simp [exLine, EdgeList.numVertices])).mono fun _ h => h.2

example : Run.Gives (main CcBench.exLib [4] [1, 7] 1 1 [0] exPath) fun ts => ∀ t ∈ ts, t.id = 7 → Normalised [0, 1, 0] t.scores := by
  refine (bench_correct_symmetric CcBench.exLib_conforms.build exPath_loaded (by decide) (by decide) exPath_few ?_ [4] [1, 7] (by simp) 1 [[0]] (by simp) (by simp [exPath, EdgeList.numVertices])).mono
    fun ts ⟨t1, h⟩ t ht h7 => ?_
  · intro u v
    simp only [count_successors, exPath, EdgeList.contents, List.zip_cons_cons, List.zip_nil_right, List.countP_cons, List.countP_nil]
    simp only [decide_eq_true_eq]
    split_ifs <;> omega
  · have := h t ht
    have hm : (t.threads, t.id, t.sources) ∈ [4] ×ˢ [1, 7] ×ˢ [[0]] := by rw [← t1]; exact List.mem_map.2 ⟨t, ht, rfl⟩
    have hs : t.sources = [0] := by simpa using (List.mem_product.1 (List.mem_product.1 hm).2).2
    rw [if_neg (by rw [h7]; decide), hs] at this
    have e : edgeScores exPath.contents exPath.numVertices [0] = [0, 1, 0] := by decide +kernel
    rwa [e] at this

example : Run.Faults (main CcBench.exLib [1] [11] 1 2 [0, 2] exLine) .outOfBounds :=
  bench_unknown_version CcBench.exLib_conforms.build exLine_loaded (by decide) exLine_few 1 11 (by decide) [0, 2] (by simp [exLine, EdgeList.numVertices])

end NW.BcBench
