import Verif.Model.PrBench
import Verif.Spec.PageRankEdges
import Verif.Props.CcBench
import Verif.Props.Bench
import Verif.Props.PageRank
import Verif.Props.PageRankExp
import Verif.Props.PageRankV2
import Verif.Props.PageRankResidual
import Verif.Props.Util

/-!
# C115: the PageRank benchmark

Stated for the PageRank of the edge list that was read (`Spec/PageRankEdges`).
-/

namespace NW.PrBench
open Spec PageRank PageRankExp
open CcBench (Lib Loaded)

variable {L : Lib} {el : EdgeList Unit}

/-! ## The graph and the degrees -/

theorem rows_ok (hL : L.build.Ok) (he : Loaded el) : ∃ g, CcBench.adjacency L true 1 el = .ok g ∧ g.length = el.numVertices ∧
    ∀ u, u < el.numVertices → (g.getD u []).Perm (inEdges el.contents u) := by
  obtain ⟨g, h1, -, h3, -, h5, -⟩ := Csr.csr_directed_build L.build hL el he.wf he.below 1 (by omega)
  simp only [Nat.one_ne_zero, if_false] at h5
  choose! f hf1 hf2 using h5
  refine ⟨(List.range el.numVertices).map f, ?_, by simp, fun u hu => ?_⟩
  · unfold CcBench.adjacency CcBench.rowsOf
    rw [h1, res_bind_ok, h3]
    exact mapM_ok_of_forall fun u hu => hf1 u (List.mem_range.1 hu)
  · rw [List.getD_eq_getElem?_getD, List.getElem?_map, List.getElem?_range hu]
    exact hf2 u hu

theorem sum_range_list (n : Nat) (f : Nat → Nat) : ((List.range n).map f).sum = ∑ i ∈ Finset.range n, f i := rfl

/-- Counting the edges that leave `j` by their targets. -/
theorem count_inEdges (n j : Nat) (es : List (Nat × Nat × Unit)) (hb : EndpointsBelow n es) :
    ∑ u ∈ Finset.range n, ((inEdges es u).map Prod.fst).count j = outDegree es j := by
  induction es with
  | nil => simp [inEdges, outDegree]
  | cons e es ih =>
    have ih := ih fun x hx => hb x (List.mem_cons_of_mem _ hx)
    have he := (hb e (by simp)).2
    have hstep : ∀ u, ((inEdges (e :: es) u).map Prod.fst).count j = (if e.2.1 = u then if e.1 = j then 1 else 0 else 0) + ((inEdges es u).map Prod.fst).count j := by
      intro u
      unfold inEdges
      by_cases h : e.2.1 = u
      · simp only [List.filter_cons, h, decide_true, if_true, List.map_cons, List.count_cons, beq_iff_eq]
        omega
      · simp only [List.filter_cons, h, decide_false, Bool.false_eq_true, if_false, Nat.zero_add]
    rw [Finset.sum_congr rfl fun u _ => hstep u, Finset.sum_add_distrib, ih, Finset.sum_ite_eq, if_pos (Finset.mem_range.2 he)]
    unfold outDegree
    rw [List.countP_cons]
    simp only [decide_eq_true_eq]
    omega

theorem reader_ok (hL : L.Conforms) (he : Loaded el) : ∃ g deg, reader L el = .ok (g, deg) ∧ g.length = el.numVertices ∧ InRange g ∧ deg.length = g.length ∧
    (∀ j, j < g.length → deg.getD j 0 = outDegree el.contents j ∧ listed g j = outDegree el.contents j) ∧
    ∀ d p, IsPageRank g (fun j => deg.getD j 0) d p ↔ EdgesPageRank el.contents el.numVertices d p := by
  obtain ⟨g, h1, h2, h3⟩ := rows_ok hL.build he
  have hnb : ∀ u, u < g.length → (nbrs g u).Perm ((inEdges el.contents u).map Prod.fst) := fun u hu => by
    unfold nbrs
    exact (h3 u (by omega)).map _
  have hin : InRange g := by
    intro u v h
    have hu := h.src_lt
    have := (hnb u hu).mem_iff.1 h
    obtain ⟨x, hx, rfl⟩ := List.mem_map.1 this
    unfold inEdges at hx
    obtain ⟨y, hy, rfl⟩ := List.mem_map.1 hx
    rw [h2]
    exact (he.below y (List.mem_filter.1 hy).1).1
  have hrows : ∀ j, ((g.map fun r => r.map Prod.fst).map (List.count j)).sum = outDegree el.contents j := by
    intro j
    rw [← count_inEdges el.numVertices j el.contents he.below, ← sum_range_list, ← h2, List.map_map]
    congr 1
    refine List.ext_getElem (by simp) fun i hi hi' => ?_
    simp only [List.length_map] at hi
    simp only [List.getElem_map, Function.comp, List.getElem_range]
    have := hnb i hi
    unfold nbrs at this
    rw [List.getD_eq_getElem?_getD, List.getElem?_eq_getElem hi] at this
    exact this.count_eq j
  have hcl : Bench.Closed (g.map fun r => r.map Prod.fst) := by
    intro l hl v hv
    obtain ⟨r, hr, rfl⟩ := List.mem_map.1 hl
    obtain ⟨i, hi, rfl⟩ := List.mem_iff_getElem.1 hr
    rw [List.length_map]
    refine hin i v ?_
    unfold Edge nbrs
    rw [List.getD_eq_getElem?_getD, List.getElem?_eq_getElem hi]
    exact hv
  have hdeg := Bench.build_degrees_correct hcl (sched := L.sched) hL.sched
  rw [List.length_map] at hdeg
  have hget : ∀ j, j < g.length → ((List.range g.length).map (Bench.inDegree (g.map fun r => r.map Prod.fst))).getD j 0 = outDegree el.contents j := by
    intro j hj
    rw [List.getD_eq_getElem?_getD, List.getElem?_map, List.getElem?_range hj]
    exact hrows j
  refine ⟨g, _, ?_, h2, hin, by simp, fun j hj => ⟨hget j hj, ?_⟩, fun d p => ?_⟩
  · unfold reader
    rw [h1, res_bind_ok, hdeg, res_bind_ok]; rfl
  · rw [← hrows j]
    unfold listed
    rw [List.map_flatten, List.count_flatten]
  · unfold IsPageRank EdgesPageRank
    rw [h2]
    refine forall_congr' fun i => imp_congr_right fun hi => ?_
    have hperm := (hnb i (by omega)).map fun j => p j / (((List.range g.length).map (Bench.inDegree (g.map fun r => r.map Prod.fst))).getD j 0 : ℚ)
    have hs := hperm.sum_eq
    rw [h2] at hs
    rw [hs]
    unfold inEdges
    rw [List.map_map, List.map_map]
    have : ((el.contents.filter fun x => decide (x.2.1 = i)).map (((fun j => p j / (((List.range el.numVertices).map (Bench.inDegree (g.map fun r => r.map Prod.fst))).getD j 0 : ℚ)) ∘ Prod.fst) ∘ fun x => (x.1, x.2.2))) =
        (el.contents.filter fun e => decide (e.2.1 = i)).map fun e => p e.1 / outDegree el.contents e.1 := by
      refine List.map_congr_left fun e hm => ?_
      have := (he.below e (List.mem_filter.1 hm).1).1
      simp only [Function.comp]
      rw [← h2, hget _ (by omega)]
    rw [this]

/-! ## The trials -/

theorem xalways_mono {α : Type} {g : Rows α} {n : Nat} {jac : Bool} {cut : List (List Nat) → Prop} {ts : Mem → Nat → PageRank.Task α → Res (PageRank.Task α × Mem)} {deg : List Nat} {threshold : ℚ}
    {maxIters : Nat} {m : Res Mem} {Q Q' : List ℚ × Nat → Prop} (h : XAlways g n jac cut ts deg threshold maxIters m Q) (hq : ∀ r, Q r → Q' r) :
    XAlways g n jac cut ts deg threshold maxIters m Q' := by
  obtain ⟨m', h1, h2⟩ := h
  refine ⟨m', h1, ?_⟩
  cases maxIters with
  | zero => exact hq _ h2
  | succ k => exact ⟨h2.1, fun bs hbs => (h2.2 bs hbs).mono hq⟩

theorem v6_mono {α : Type} {g : Rows α} {deg : List Nat} {d threshold : ℚ} {maxIters : Nat} {rank : List ℚ} {Q Q' : List ℚ × Nat → Prop}
    (h : v6 g deg d threshold maxIters rank Q) (hq : ∀ r, Q r → Q' r) : v6 g deg d threshold maxIters rank Q' := by
  obtain ⟨m', h1, h2⟩ := h
  refine ⟨m', h1, ?_⟩
  cases maxIters with
  | zero => exact hq _ h2
  | succ k => exact fun bs hbs => (h2 bs hbs).mono hq

theorem always_mono {α : Type} {g : Rows α} {deg : List Nat} {d threshold : ℚ} {maxIters : Nat} {rank : List ℚ} {Q Q' : List ℚ × Nat → Prop}
    (h : Always g deg d threshold maxIters rank Q) (hq : ∀ r, Q r → Q' r) : Always g deg d threshold maxIters rank Q' := by
  unfold Always at h ⊢
  split at h
  · exact h
  · cases maxIters with
    | zero => exact hq _ h
    | succ k => exact h.mono hq

/-- Scores as good as C71 claims them to be after some number of rounds, for the damping factor 0.85. -/
def Good (o : Opts) (n : Nat) (p : Nat → ℚ) (x : List ℚ) : Prop :=
  ∃ k ≤ o.maxIters, Close n p ((1 - (1 - 17 / 20) / n) ^ k / (1 - 17 / 20)) x ∧ (k < o.maxIters → Close n p (o.tolerance * n ^ 2 / (1 - 17 / 20) ^ 2) x)

/-- The versions of C71, C91 and C92. -/
def Sound (T id : Nat) : Prop := id ∈ [1, 2, 6, 7, 8, 9, 10, 11, 14] ∨ id = 4 ∧ 0 < T

theorem call_ok {o : Opts} {T id : Nat} (hid : Sound T id) {g : Rows Unit} {deg : List Nat} {rank : List ℚ} (hu : Usable g deg damping rank) {p : Nat → ℚ}
    (hp : IsPageRank g (fun j => deg.getD j 0) damping p) {Q : List ℚ → Prop} (hq : ∀ x, Good o g.length p x → Q x) : call o T id g deg rank Q := by
  obtain ⟨e1, e4, e6, e7, e10, e14⟩ := page_rank_versions g deg damping o.tolerance o.maxIters rank hu p hp
  have e2 := page_rank_v2_correct g deg damping o.tolerance o.maxIters rank hu p hp
  have hmono : ∀ r, Approx g damping o.tolerance o.maxIters p r → Q r.1 := fun r hr => hq _ ⟨r.2, hr.1, hr.2.1, hr.2.2⟩
  rcases hid with hid | ⟨rfl, hT⟩
  · simp only [List.mem_cons, List.not_mem_nil, or_false] at hid
    rcases hid with rfl | rfl | rfl | rfl | rfl | rfl | rfl | rfl | rfl
    · exact xalways_mono e1 hmono
    · exact xalways_mono e2 hmono
    · exact v6_mono e6 hmono
    · exact xalways_mono e7 hmono
    · exact xalways_mono e7 hmono
    · exact xalways_mono e7 hmono
    · exact xalways_mono e10 hmono
    · obtain ⟨q, h1, h2, -, h4⟩ := page_rank_converges g hu.nonempty hu.inRange deg hu.len hu.degrees damping o.tolerance hu.d0 hu.d1 o.maxIters rank hu.rankLen
      have hpq := h2 p hp
      have hcl : ∀ e x, Close g.length q e x → Close g.length p e x := by
        rintro e x ⟨k1, k2⟩
        refine ⟨k1, fun i y hy => ?_⟩
        have hi : i < g.length := by rw [← k1]; exact (List.getElem?_eq_some_iff.1 hy).1
        rw [hpq i hi]; exact k2 i y hy
      exact always_mono h4 fun r hr => hq _ ⟨r.2, hr.1, hcl _ _ hr.2.1, fun h => hcl _ _ (hr.2.2 h)⟩
    · exact xalways_mono e14 hmono
  · exact xalways_mono (e4 T hT) hmono

theorem resid_mono {r : Res (List ℚ)} {Q Q' : List ℚ → Prop} (h : ∃ x, r = .ok x ∧ Q x) (hq : ∀ r, Q r → Q' r) : ∃ x, r = .ok x ∧ Q' x :=
  h.imp fun _ h => ⟨h.1, hq _ h.2⟩

theorem call_mono {o : Opts} {T id : Nat} {g : Rows Unit} {deg : List Nat} {rank : List ℚ} {Q Q' : List ℚ → Prop} (h : call o T id g deg rank Q) (hq : ∀ r, Q r → Q' r) :
    call o T id g deg rank Q' := by
  have : id ∈ List.range 15 ∨ ∃ n, id = n + 15 := by
    by_cases h : id < 15
    · exact Or.inl (List.mem_range.2 h)
    · exact Or.inr ⟨id - 15, by omega⟩
  rcases this with hid | ⟨n, rfl⟩
  · have hid : id ∈ [0, 1, 2, 3, 4, 5, 6, 7, 8, 9, 10, 11, 12, 13, 14] := hid
    simp only [List.mem_cons, List.not_mem_nil, or_false] at hid
    rcases hid with rfl | rfl | rfl | rfl | rfl | rfl | rfl | rfl | rfl | rfl | rfl | rfl | rfl | rfl | rfl
    · exact hq _ h
    · dsimp only [call, v1, v2, v4, v789, v10, v12, v14] at h ⊢; exact xalways_mono h fun _ => hq _
    · dsimp only [call, v1, v2, v4, v789, v10, v12, v14] at h ⊢; exact xalways_mono h fun _ => hq _
    · exact resid_mono h hq
    · dsimp only [call, v1, v2, v4, v789, v10, v12, v14] at h ⊢; exact xalways_mono h fun _ => hq _
    · exact hq _ h
    · dsimp only [call] at h ⊢; exact v6_mono h fun _ => hq _
    · dsimp only [call, v1, v2, v4, v789, v10, v12, v14] at h ⊢; exact xalways_mono h fun _ => hq _
    · dsimp only [call, v1, v2, v4, v789, v10, v12, v14] at h ⊢; exact xalways_mono h fun _ => hq _
    · dsimp only [call, v1, v2, v4, v789, v10, v12, v14] at h ⊢; exact xalways_mono h fun _ => hq _
    · dsimp only [call, v1, v2, v4, v789, v10, v12, v14] at h ⊢; exact xalways_mono h fun _ => hq _
    · dsimp only [call] at h ⊢; exact always_mono h fun _ => hq _
    · dsimp only [call, v1, v2, v4, v789, v10, v12, v14] at h ⊢; exact xalways_mono h fun _ => hq _
    · exact resid_mono h hq
    · dsimp only [call, v1, v2, v4, v789, v10, v12, v14] at h ⊢; exact xalways_mono h fun _ => hq _
  · exact hq _ h

theorem trials_mono {o : Opts} {T id : Nat} {g : Rows Unit} {deg : List Nat} (k : Nat) : ∀ {rank : List ℚ} {Q Q' : List ℚ → Prop}, trials o T id g deg k rank Q → (∀ r, Q r → Q' r) →
    trials o T id g deg k rank Q' := by
  induction k with
  | zero => intro rank Q Q' h hq; exact hq _ h
  | succ k ih => intro rank Q Q' h hq; exact call_mono h fun r h => ih h hq

theorem pairs_mono {o : Opts} {g : Rows Unit} {deg : List Nat} (ps : List (Nat × Nat)) : ∀ {rank : List ℚ} {acc : List (List ℚ)} {Q Q' : List (List ℚ) → Prop}, pairs o g deg ps rank acc Q →
    (∀ r, Q r → Q' r) → pairs o g deg ps rank acc Q' := by
  induction ps with
  | nil => intro rank acc Q Q' h hq; exact hq _ h
  | cons x ps ih => intro rank acc Q Q' h hq; exact trials_mono _ h fun r h => ih h hq

/-- What the benchmark guarantees can be weakened. -/
theorem main_mono {o : Opts} {threads ids : List Nat} {Q Q' : List (List ℚ) → Prop} (h : main L o threads ids el Q) (hq : ∀ r, Q r → Q' r) : main L o threads ids el Q' :=
  h.imp fun _ h => ⟨h.1, pairs_mono _ h.2 hq⟩

theorem trials_ok {o : Opts} {T id : Nat} (hid : Sound T id) {g : Rows Unit} {deg : List Nat} {p : Nat → ℚ} (hp : IsPageRank g (fun j => deg.getD j 0) damping p)
    (k : Nat) : ∀ {rank : List ℚ}, Usable g deg damping rank → ∀ {Q : List ℚ → Prop}, (∀ x, Good o g.length p x → Q x) → trials o T id g deg (k + 1) rank Q := by
  induction k with
  | zero => intro rank hu Q hq; exact call_ok hid hu hp hq
  | succ k ih =>
    intro rank hu Q hq
    refine call_ok hid hu hp fun x hx => ih ⟨hu.nonempty, hu.inRange, hu.len, hu.degrees, hu.d0, hu.d1, ?_⟩ hq
    obtain ⟨_, -, hc, -⟩ := hx
    exact hc.1

theorem pairs_ok {o : Opts} (ht : 0 < o.trials) {g : Rows Unit} {deg : List Nat} {p : Nat → ℚ} (hp : IsPageRank g (fun j => deg.getD j 0) damping p)
    (ps : List (Nat × Nat)) (hps : ∀ x ∈ ps, Sound x.1 x.2) : ∀ {rank : List ℚ} {acc : List (List ℚ)}, Usable g deg damping rank → (∀ x ∈ acc, Good o g.length p x) →
      ∀ {Q : List (List ℚ) → Prop}, (∀ l, l.length = acc.length + ps.length → (∀ x ∈ l, Good o g.length p x) → Q l) → pairs o g deg ps rank acc Q := by
  induction ps with
  | nil => intro rank acc hu ha Q hq; exact hq acc rfl ha
  | cons x ps ih =>
    intro rank acc hu ha Q hq
    obtain ⟨T, id⟩ := x
    obtain ⟨k, hk⟩ : ∃ k, o.trials = k + 1 := ⟨o.trials - 1, by omega⟩
    unfold pairs
    rw [hk]
    refine trials_ok (hps (T, id) List.mem_cons_self) hp k hu fun x hx => ?_
    refine ih (fun y hy => hps y (List.mem_cons_of_mem _ hy)) ⟨hu.nonempty, hu.inRange, hu.len, hu.degrees, hu.d0, hu.d1, ?_⟩ ?_ fun l hl hg => hq l ?_ hg
    · obtain ⟨_, -, hc, -⟩ := hx
      exact hc.1
    · intro y hy
      rcases List.mem_append.1 hy with hy | hy
      · exact ha y hy
      · rw [List.mem_singleton.1 hy]; exact hx
    · rw [hl]; simp only [List.length_append, List.length_cons, List.length_nil]; omega

theorem usable {g : Rows Unit} {deg : List Nat} (hne : 0 < g.length) (hg : InRange g) (hl : deg.length = g.length)
    (hd : ∀ j, j < g.length → deg.getD j 0 = outDegree el.contents j ∧ listed g j = outDegree el.contents j) : Usable g deg damping (List.replicate g.length 0) :=
  ⟨fun h => absurd hne (by rw [h]; decide), hg, hl, fun j hj => by rw [(hd j hj).1, (hd j hj).2], by unfold damping; norm_num, by unfold damping; norm_num, by simp⟩

/-- C115. For every file with at least one vertex there is exactly one PageRank vector of its edges, and for every list of numbers of threads and of versions among 1, 2, 4, 6 to 11 and 14, the benchmark reports
once for each pair; under every schedule, what it reports are the scores of all vertices, as close to the PageRank of the file as C71 claims for some number of rounds.
Missing for the full C115: the versions 0, 3, 12 and 13, see `bench_no_version` and `bench_not_normalised`, and C93 for 12. -/
theorem bench_correct_partial (hL : L.Conforms) (he : Loaded el) (hne : 0 < el.numVertices) (o : Opts) (ht : 0 < o.trials) (threads ids : List Nat)
    (hid : ∀ T ∈ threads, ∀ i ∈ ids, Sound T i) :
    ∃ p, EdgesPageRank el.contents el.numVertices (17 / 20) p ∧
      (∀ q, EdgesPageRank el.contents el.numVertices (17 / 20) q → ∀ i, i < el.numVertices → q i = p i) ∧
      main L o threads ids el fun reports => reports.length = threads.length * ids.length ∧ ∀ x ∈ reports, Good o el.numVertices p x := by
  obtain ⟨g, deg, h1, h2, h3, h4, h5, h6⟩ := reader_ok hL he
  have hu := usable (by omega) h3 h4 h5
  obtain ⟨p, p1, p2, -⟩ := page_rank_converges g hu.nonempty hu.inRange deg hu.len hu.degrees damping o.tolerance hu.d0 hu.d1 o.maxIters _ hu.rankLen
  refine ⟨p, (h6 _ _).1 p1, fun q hq i hi => p2 q ((h6 _ _).2 hq) i (by omega), (g, deg), h1, ?_⟩
  refine pairs_ok ht p1 _ ?_ hu (by simp) fun l hl hg => ⟨?_, by rw [← h2]; exact hg⟩
  · intro x hx
    obtain ⟨T, hT, hx⟩ := List.mem_flatMap.1 hx
    obtain ⟨i, hi, rfl⟩ := List.mem_map.1 hx
    exact hid T hT i hi
  · rw [hl]
    simp [List.length_flatMap]

/-- C115, against the property: version 0 is commented out.  It and unknown versions report the score zero for every vertex. -/
theorem bench_no_version (hL : L.Conforms) (he : Loaded el) (o : Opts) (T id : Nat) (hid : id ∉ [1, 2, 3, 4, 6, 7, 8, 9, 10, 11, 12, 13, 14]) :
    main L o [T] [id] el fun reports => reports = [List.replicate el.numVertices 0] := by
  obtain ⟨g, deg, h1, h2, -⟩ := reader_ok hL he
  refine ⟨(g, deg), h1, ?_⟩
  simp only [List.mem_cons, List.not_mem_nil, or_false, not_or] at hid
  have hc : ∀ rank Q, call o T id g deg rank Q = Q rank := by
    intro rank Q
    have : id = 0 ∨ id = 5 ∨ ∃ n, id = n + 15 := by
      by_cases h : id < 15
      · omega
      · exact Or.inr (Or.inr ⟨id - 15, by omega⟩)
    rcases this with rfl | rfl | ⟨n, rfl⟩ <;> rfl
  have ht : ∀ k rank Q, trials o T id g deg k rank Q = Q rank := by
    intro k
    induction k with
    | zero => intro rank Q; rfl
    | succ k ih => intro rank Q; unfold trials; rw [hc, ih]
  simp only [List.flatMap_cons, List.flatMap_nil, List.map_cons, List.map_nil, List.append_nil]
  unfold pairs
  rw [ht]
  unfold pairs
  rw [h2]; rfl

/-- C115, against the property: versions 3 and 13 on a file with at least seven vertices, with a tolerance below 0.15 and one trial: the scores they report add up to more than one, and so they are
not the PageRank. -/
theorem bench_not_normalised (hL : L.Conforms) (he : Loaded el) (hn : 7 ≤ el.numVertices) (o : Opts) (ht : o.trials = 1) (htol : o.tolerance < 3 / 20) (hm : 0 < o.maxIters) (T id : Nat)
    (hid : id = 3 ∨ id = 13) : main L o [T] [id] el fun reports => ∃ x, reports = [x] ∧ 1 < x.sum ∧
      ∀ p, EdgesPageRank el.contents el.numVertices (17 / 20) p → ∃ i, i < el.numVertices ∧ x.getD i 0 ≠ p i := by
  obtain ⟨g, deg, h1, h2, h3, h4, h5, h6⟩ := reader_ok hL he
  have hu := usable (by omega) h3 h4 h5
  have hlen : (7 : ℚ) ≤ g.length := by rw [h2]; exact_mod_cast hn
  have key := fun reset => page_rank_v3_v13_not_normalised g reset deg damping o.tolerance o.maxIters _ hu (by unfold damping; linarith) hm (by unfold damping; linarith)
  refine ⟨(g, deg), h1, ?_⟩
  simp only [List.flatMap_cons, List.flatMap_nil, List.map_cons, List.map_nil, List.append_nil]
  unfold pairs
  rw [ht]
  unfold trials
  rcases hid with rfl | rfl
  · obtain ⟨r, r1, r2, r3⟩ := key false
    exact ⟨r, r1, r, rfl, r2, fun p hp => by rw [← h2]; exact (r3 p ((h6 _ _).2 hp)).2⟩
  · obtain ⟨r, r1, r2, r3⟩ := key true
    exact ⟨r, r1, r, rfl, r2, fun p hp => by rw [← h2]; exact (r3 p ((h6 _ _).2 hp)).2⟩

/-! ## print_n_ranks -/

/-- What is expected of the sort: the positions of any array of scores come out in some order along which the scores do not increase. -/
def Sorts (srt : (Nat → Nat → Bool) → List Nat → List Nat) : Prop := ∀ x : List ℚ,
  (srt (Util.viaProxy (fun a b => decide (a > b)) x) (List.range x.length)).Perm (List.range x.length) ∧
    (srt (Util.viaProxy (fun a b => decide (a > b)) x) (List.range x.length)).Pairwise fun a b => Util.viaProxy (fun a b => decide (a > b)) x b a = false

theorem sorted_positions {srt : (Nat → Nat → Bool) → List Nat → List Nat} (hs : Sorts srt) (x : List ℚ) (hne : x ≠ []) :
    ∃ perm, Util.proxysort srt (fun a b => decide (a > b)) x = .ok perm ∧ perm.Perm (List.range x.length) ∧
      perm.Pairwise (fun a b => Util.viaProxy (fun a b => decide (a > b)) x b a = false) := by
  refine ⟨srt (Util.viaProxy (fun a b => decide (a > b)) x) (List.range x.length), ?_, (hs x).1, (hs x).2⟩
  have : List.range x.length ≠ [] := by simpa using hne
  have hc : decide (List.range x.length ≠ []) = true := decide_eq_true this
  show (do check (decide (List.range x.length ≠ [])); _ : Res (List Nat)) = _
  rw [hc]
  rfl

theorem mapM_error_of_index {α β : Type} {f : α → Res β} {e : Fault} : ∀ {l : List α} {k : Nat} (hk : k < l.length), (∀ i (hi : i < k), ∃ b, f (l[i]'(by omega)) = .ok b) →
    f l[k] = .error e → l.mapM f = .error e := by
  intro l
  induction l with
  | nil => intro k hk; cases hk
  | cons a l ih =>
    intro k hk h1 h2
    rw [List.mapM_cons]
    cases k with
    | zero =>
      rw [List.getElem_cons_zero] at h2
      rw [h2, res_bind_error]
    | succ k =>
      obtain ⟨b, hb⟩ := h1 0 (by omega)
      rw [List.getElem_cons_zero] at hb
      rw [hb, res_bind_ok, ih (k := k) (by simpa using hk) (fun i hi => by simpa using h1 (i + 1) (by omega)) (by simpa using h2), res_bind_error]

/-- C115. With ten scores or more, ten different vertices are printed with their scores, the largest first, and no other vertex has a larger score than one of them. -/
theorem print_n_ranks_partial {srt : (Nat → Nat → Bool) → List Nat → List Nat} (hs : Sorts srt) (x : List ℚ) (hx : 10 ≤ x.length) :
    ∃ out, printRanks srt x = .ok out ∧ out.length = 10 ∧ (out.map Prod.fst).Nodup ∧ (∀ q ∈ out, x[q.1]? = some q.2) ∧ (out.map Prod.snd).Pairwise (fun a b => b ≤ a) ∧
      ∀ v y, x[v]? = some y → v ∉ out.map Prod.fst → ∀ q ∈ out, y ≤ q.2 := by
  obtain ⟨perm, h1, h2, h3⟩ := sorted_positions hs x (by rintro rfl; simp at hx)
  have hlen : perm.length = x.length := by simpa using h2.length_eq
  have hlt : ∀ v ∈ perm, v < x.length := fun v hv => by simpa using h2.mem_iff.1 hv
  have hnd : perm.Nodup := h2.symm.nodup List.nodup_range
  have hmap : printRanks srt x = .ok ((List.range 10).map fun i => (perm.getD i 0, x.getD (perm.getD i 0) 0)) := by
    unfold printRanks
    rw [h1, res_bind_ok]
    refine mapM_ok_of_forall fun i hi => ?_
    have hi := List.mem_range.1 hi
    have hv : perm.getD i 0 = perm[i]'(by omega) := by rw [List.getD_eq_getElem?_getD, List.getElem?_eq_getElem (by omega)]; rfl
    have hv' := hlt _ (List.getElem_mem (l := perm) (n := i) (by omega))
    rw [vget_of_lt (by omega), res_bind_ok, vget_of_lt hv', res_bind_ok, hv, List.getD_eq_getElem?_getD, List.getElem?_eq_getElem hv']; rfl
  have hout : ((List.range 10).map fun i => (perm.getD i 0, x.getD (perm.getD i 0) 0)) = (perm.take 10).map fun v => (v, x.getD v 0) := by
    refine List.ext_getElem (by simp; omega) fun i hi hi' => ?_
    simp only [List.length_map, List.length_range] at hi
    simp only [List.getElem_map, List.getElem_range, List.getElem_take]
    rw [List.getD_eq_getElem?_getD (l := perm), List.getElem?_eq_getElem (by omega)]; rfl
  rw [hout] at hmap
  have hfst : ((perm.take 10).map fun v => (v, x.getD v 0)).map Prod.fst = perm.take 10 := by
    rw [List.map_map]
    exact List.map_id _
  have hget : ∀ v ∈ perm, x[v]? = some (x.getD v 0) := fun v hv => by
    rw [List.getD_eq_getElem?_getD, List.getElem?_eq_getElem (hlt v hv)]; rfl
  have hsnd : ∀ a b, a ∈ perm → b ∈ perm → Util.viaProxy (fun a b => decide (a > b)) x b a = false → x.getD b 0 ≤ x.getD a 0 := by
    intro a b ha hb h
    unfold Util.viaProxy at h
    rw [hget a ha, hget b hb] at h
    simpa using h
  refine ⟨_, hmap, by simp; omega, by rw [hfst]; exact hnd.sublist (List.take_sublist _ _), ?_, ?_, ?_⟩
  · intro q hq
    obtain ⟨v, hv, rfl⟩ := List.mem_map.1 hq
    exact hget v (List.mem_of_mem_take hv)
  · rw [List.map_map, List.pairwise_map]
    refine (h3.sublist (List.take_sublist 10 _)).imp_of_mem fun {a b} ha hb h => ?_
    exact hsnd a b (List.mem_of_mem_take ha) (List.mem_of_mem_take hb) h
  · intro v y hy hv q hq
    rw [hfst] at hv
    obtain ⟨u, hu, rfl⟩ := List.mem_map.1 hq
    have hvp : v ∈ perm := h2.mem_iff.2 (List.mem_range.2 (List.getElem?_eq_some_iff.1 hy).1)
    have hvd : v ∈ perm.drop 10 := by
      rw [← List.take_append_drop 10 perm] at hvp
      exact (List.mem_append.1 hvp).resolve_left hv
    have h3' := h3
    rw [← List.take_append_drop 10 perm, List.pairwise_append] at h3'
    have := hsnd u v (List.mem_of_mem_take hu) hvp (h3'.2.2 u hu v hvd)
    rw [hget v hvp] at hy
    rw [← Option.some.inj hy]
    exact this

/-- C115, against the property: with fewer than ten vertices, the positions are read out of bounds. -/
theorem print_n_ranks_small {srt : (Nat → Nat → Bool) → List Nat → List Nat} (hs : Sorts srt) (x : List ℚ) (hx : x.length < 10) (hne : x ≠ []) :
    printRanks srt x = .error .outOfBounds := by
  obtain ⟨perm, h1, h2, -⟩ := sorted_positions hs x hne
  have hlen : perm.length = x.length := by simpa using h2.length_eq
  have hlt : ∀ v ∈ perm, v < x.length := fun v hv => by simpa using h2.mem_iff.1 hv
  unfold printRanks
  rw [h1, res_bind_ok]
  refine mapM_error_of_index (k := x.length) (by simpa using hx) (fun i hi => ?_) ?_
  · rw [List.getElem_range, vget_of_lt (by omega), res_bind_ok, vget_of_lt (hlt _ (List.getElem_mem _)), res_bind_ok]
    exact ⟨_, rfl⟩
  · rw [List.getElem_range, vget_of_ge (by omega), res_bind_error]

/-! ## The hypotheses are met -/

theorem exSorts : ∃ srt, Sorts srt := by
  classical
  refine ⟨fun lt l => if h : ∃ l' : List Nat, l'.Perm l ∧ l'.Pairwise (fun a b => lt b a = false) then h.choose else l, fun x => ?_⟩
  have h : ∃ l' : List Nat, l'.Perm (List.range x.length) ∧ l'.Pairwise (fun a b => Util.viaProxy (fun a b => decide (a > b)) x b a = false) := by
    refine ⟨EdgeList.insertionSort (fun a b => decide (x.getD a 0 > x.getD b 0)) (List.range x.length), ?_⟩
    have hs : IsSort (fun a b => decide (x.getD a 0 > x.getD b 0)) (EdgeList.insertionSort fun a b => decide (x.getD a 0 > x.getD b 0)) := by
      refine (EdgeList.insertionSort_stable ?_ ?_ ?_).toIsSort <;> simp only [decide_eq_true_eq, decide_eq_false_iff_not, not_lt, gt_iff_lt] <;> intros <;> linarith
    refine ⟨hs.perm _, (hs.sorted _).imp_of_mem fun {a b} ha hb h => ?_⟩
    have ha := List.mem_range.1 ((hs.perm _).mem_iff.1 ha)
    have hb := List.mem_range.1 ((hs.perm _).mem_iff.1 hb)
    unfold Util.viaProxy
    rw [List.getD_eq_getElem?_getD, List.getD_eq_getElem?_getD] at h
    rw [List.getElem?_eq_getElem ha, List.getElem?_eq_getElem hb] at h ⊢
    exact h
  beta_reduce
  rw [dif_pos h]
  exact ⟨h.choose_spec.1, h.choose_spec.2⟩

/-- Seven vertices, one of them alone, one with a loop; four versions with one and with eight threads. -/
example : ∃ p, EdgesPageRank CcBench.exEl.contents 7 damping p ∧ main CcBench.exLib ⟨1 / 10000, 20, 3⟩ [1, 8] [1, 4, 11, 14] CcBench.exEl fun reports => reports.length = 8 := by
  obtain ⟨p, h1, -, h⟩ := bench_correct_partial CcBench.exLib_conforms CcBench.exEl_loaded (by decide) ⟨1 / 10000, 20, 3⟩ (by decide) [1, 8] [1, 4, 11, 14] (by simp [Sound])
  exact ⟨p, h1, main_mono h fun _ h => h.1⟩

example : ∃ srt, printRanks srt [1, 2, 3] = .error .outOfBounds ∧ ∃ out, printRanks srt ((List.range 12).map fun i => (i : ℚ) / 2) = .ok out ∧ out.length = 10 := by
  obtain ⟨srt, hs⟩ := exSorts
  obtain ⟨out, h1, h2, -⟩ := print_n_ranks_partial hs ((List.range 12).map fun i => (i : ℚ) / 2) (by decide)
  exact ⟨srt, print_n_ranks_small hs _ (by decide) (by simp), out, h1, h2⟩

end NW.PrBench
