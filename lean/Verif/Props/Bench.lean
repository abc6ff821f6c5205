import Verif.Model.Bench
import Verif.Lemmas.Csr
import Verif.Props.Binary
import Verif.Props.MatrixMarket

/-!
# C104: the random sources of the benchmarks, C105: loading a graph
-/

namespace NW.Bench

/-! ## Specification -/

/-- The number of edges to `v`. -/
def inDegree (adj : List (List Nat)) (v : Nat) : Nat := (adj.map (List.count v)).sum

/-- Every neighbour is a vertex. -/
def Closed (adj : List (List Nat)) : Prop := ∀ l ∈ adj, ∀ v ∈ l, v < adj.length

instance (adj : List (List Nat)) : Decidable (Closed adj) := inferInstanceAs (Decidable (∀ l ∈ adj, ∀ v ∈ l, v < adj.length))

/-- The values among the first `k` that are vertices with an incoming edge. -/
def hits (adj : List (List Nat)) (draw : Nat → Nat) (k : Nat) : List Nat := ((List.range k).map draw).filter fun v => decide (0 < inDegree adj v)

/-! ## The degrees -/

/-- C104: the result of build_degrees is the number of incoming edges of every vertex, whatever the order of the increments. -/
theorem build_degrees_correct {adj : List (List Nat)} (h : Closed adj) {sched : List Nat → List Nat} (hs : ∀ l, (sched l).Perm l) :
    buildDegrees sched adj = .ok ((List.range adj.length).map (inDegree adj)) := by
  unfold buildDegrees
  rw [vincrAll_counts]
  · congr 1
    refine List.map_congr_left fun u _ => ?_
    rw [(hs _).count_eq, inDegree, List.count_flatten]
  · intro i hi
    rw [(hs _).mem_iff, List.mem_flatten] at hi
    obtain ⟨l, hl, hi⟩ := hi
    exact h l hl i hi

/-! ## The sources -/

section
variable {adj : List (List Nat)} {draw : Nat → Nat}

theorem hits_succ (k : Nat) : hits adj draw (k + 1) = if 0 < inDegree adj (draw k) then hits adj draw k ++ [draw k] else hits adj draw k := by
  unfold hits
  rw [List.range_succ, List.map_append, List.filter_append]
  by_cases h : 0 < inDegree adj (draw k)
  · simp [h]
  · simp [h]

theorem hits_prefix {a b : Nat} (h : a ≤ b) : hits adj draw a <+: hits adj draw b := by
  induction h with
  | refl => exact List.prefix_refl _
  | @step b _ ih =>
    show _ <+: hits adj draw (b + 1)
    rw [hits_succ]
    split
    · exact ih.trans (List.prefix_append _ _)
    · exact ih

/-- The array of the degrees. -/
def degs (adj : List (List Nat)) : List Nat := (List.range adj.length).map (inDegree adj)

theorem body_range {k : Nat} (h : draw k < adj.length) : drawBody (degs adj) draw k = .ok (if inDegree adj (draw k) = 0 then .inl (k + 1) else .inr k) := by
  unfold drawBody
  rw [vget_of_lt (by simpa [degs] using h), res_bind_ok]
  simp only [degs, List.getElem_map, List.getElem_range]
  split <;> rfl

theorem body_out {k : Nat} (h : adj.length ≤ draw k) : drawBody (degs adj) draw k = .error .outOfBounds := by
  unfold drawBody
  rw [vget_of_ge (by simpa [degs] using h)]
  rfl

/-- The next value that is kept. -/
theorem draw_next {K : Nat} (hK : ∀ k < K, draw k < adj.length) {k : Nat} (hk : k ≤ K) (hlt : (hits adj draw k).length < (hits adj draw K).length) :
    Run.Gives (Run.loop (drawBody (degs adj) draw) k) fun j => j < K ∧ hits adj draw (j + 1) = hits adj draw k ++ [draw j] := by
  refine Run.gives_loop (fun j => j ≤ K ∧ hits adj draw j = hits adj draw k) (fun j => K - j) ?_ k ⟨hk, rfl⟩
  rintro j ⟨h1, h2⟩
  have hj : j < K := by
    rcases Nat.lt_or_eq_of_le h1 with h | h
    · exact h
    · subst h
      rw [h2] at hlt
      exact absurd hlt (Nat.lt_irrefl _)
  rw [body_range (hK j hj)]
  by_cases hz : inDegree adj (draw j) = 0
  · refine .inl ⟨j + 1, by rw [if_pos hz], ⟨hj, ?_⟩, by omega⟩
    rw [hits_succ, if_neg (by omega), h2]
  · refine .inr ⟨j, by rw [if_neg hz], hj, ?_⟩
    rw [hits_succ, if_pos (by omega), h2]

/-- C104: as long as the random number generator gives vertices, the sources are the first `n` values that have an incoming edge. -/
theorem random_sources_partial (h : Closed adj) {sched : List Nat → List Nat} (hs : ∀ l, (sched l).Perm l) {K n : Nat} (hK : ∀ k < K, draw k < adj.length) (hn : n ≤ (hits adj draw K).length) :
    Run.Gives (buildRandomSources sched draw adj n) fun sources => sources = (hits adj draw K).take n ∧ sources.length = n ∧ ∀ v ∈ sources, v < adj.length ∧ 0 < inDegree adj v := by
  unfold buildRandomSources
  refine (Run.gives_lift (build_degrees_correct h hs) rfl (Q := (· = degs adj))).bind ?_
  rintro _ rfl
  refine (Run.gives_foldlM (I := fun pre s => s.2 ≤ K ∧ s.1 = hits adj draw s.2 ∧ s.1.length = pre.length) ⟨Nat.zero_le _, rfl, rfl⟩ ?_).bind ?_
  · rintro pre x post hl ⟨l, k⟩ ⟨h1, h2, h3⟩
    simp only at h1 h2 h3
    have hlen := congrArg List.length hl
    simp only [List.length_range, List.length_append, List.length_cons] at hlen
    refine (draw_next hK h1 (by rw [← h2, h3]; omega)).bind ?_
    rintro j ⟨hj, hj'⟩
    refine Run.gives_pure ⟨hj, ?_, ?_⟩
    · simp only [hj', h2]
    · simp only [List.length_append, h3, List.length_singleton]
  · rintro ⟨l, k⟩ ⟨h1, h2, h3⟩
    simp only [List.length_range] at h1 h2 h3
    have h4 : l = (hits adj draw K).take n := by
      rw [h2, ← h3, h2]
      exact List.prefix_iff_eq_take.1 (hits_prefix h1)
    refine Run.gives_pure ⟨h4, h3, ?_⟩
    intro v hv
    simp only [h2, hits, List.mem_filter, List.mem_map, List.mem_range, decide_eq_true_eq] at hv
    obtain ⟨⟨i, hi, rfl⟩, hp⟩ := hv
    exact ⟨hK i (by omega), hp⟩

theorem draw_faults {K : Nat} (hK : ∀ k < K, draw k < adj.length) (hout : adj.length ≤ draw K) {k : Nat} (hk : k ≤ K) (heq : (hits adj draw k).length = (hits adj draw K).length) :
    Loop (drawBody (degs adj) draw) k (.error .outOfBounds) := by
  induction hd : K - k generalizing k with
  | zero =>
    have : k = K := by omega
    subst this
    exact .fault (body_out hout)
  | succ m ih =>
    have hlt : k < K := by omega
    have h1 := (hits_prefix (adj := adj) (draw := draw) (show k ≤ k + 1 by omega)).length_le
    have h2 := (hits_prefix (adj := adj) (draw := draw) (show k + 1 ≤ K by omega)).length_le
    have hz : inDegree adj (draw k) = 0 := by
      rcases Nat.eq_zero_or_pos (inDegree adj (draw k)) with h | h
      · exact h
      · rw [hits_succ, if_pos h, List.length_append, List.length_singleton] at h2
        omega
    exact .step (by rw [body_range (hK k hlt), if_pos hz]) (ih (k := k + 1) hlt (by omega) (by omega))

/-- C104 (disagreement): the distribution also gives the number of vertices; if it does so before enough sources have been found, the degrees are read out of bounds. -/
theorem random_sources_out_of_bounds (h : Closed adj) {sched : List Nat → List Nat} (hs : ∀ l, (sched l).Perm l) {K n : Nat} (hK : ∀ k < K, draw k < adj.length) (hout : draw K = adj.length)
    (hn : (hits adj draw K).length < n) : Run.Faults (buildRandomSources sched draw adj n) .outOfBounds := by
  unfold buildRandomSources
  refine (Run.gives_lift (build_degrees_correct h hs) rfl (Q := (· = degs adj))).bind_faults ?_
  rintro _ rfl
  refine Run.Faults.bind ?_
  suffices ∀ (l : List Nat) (s : List Nat × Nat), s.2 ≤ K → (hits adj draw K).length < (hits adj draw s.2).length + l.length →
      Run.Faults (l.foldlM (fun s _ => drawSource (degs adj) draw s) s) .outOfBounds from this _ _ (Nat.zero_le _) (by simpa [hits] using hn)
  intro l
  induction l with
  | nil =>
    intro s h1 h2
    have := (hits_prefix (adj := adj) (draw := draw) h1).length_le
    simp only [List.length_nil] at h2
    omega
  | cons x l ih =>
    intro s h1 h2
    rw [List.foldlM_cons]
    have h3 := (hits_prefix (adj := adj) (draw := draw) h1).length_le
    simp only [List.length_cons] at h2
    rcases Nat.lt_or_eq_of_le h3 with h4 | h4
    · refine Run.Gives.bind_faults (Q := fun t => t.2 ≤ K ∧ (hits adj draw t.2).length = (hits adj draw s.2).length + 1) ?_ ?_
      · refine (draw_next hK h1 h4).bind ?_
        rintro j ⟨hj, hj'⟩
        exact Run.gives_pure ⟨hj, by simp only [hj', List.length_append, List.length_singleton]⟩
      · rintro t ⟨t1, t2⟩
        exact ih t t1 (by omega)
    · refine Run.Faults.bind (Run.Faults.bind ?_)
      have := draw_faults hK (Nat.le_of_eq hout.symm) h1 h4
      exact ⟨⟨_, this⟩, fun o ho => Loop.det ho this⟩

theorem draw_outcome (hr : ∀ k, draw k < adj.length) {k : Nat} {o : Res Nat} (h : Loop (drawBody (degs adj) draw) k o) :
    ∃ j, o = .ok j ∧ (hits adj draw (j + 1)).length = (hits adj draw k).length + 1 := by
  induction h with
  | fault h => rw [body_range (hr _)] at h; split at h <;> cases h
  | done h =>
    rw [body_range (hr _)] at h
    split at h
    · cases h
    · rename_i k r hz
      cases h
      refine ⟨_, rfl, ?_⟩
      rw [hits_succ, if_pos (by omega), List.length_append, List.length_singleton]
  | step h _ ih =>
    rw [body_range (hr _)] at h
    split at h
    · rename_i hz
      cases h
      obtain ⟨j, hj, hj'⟩ := ih
      refine ⟨j, hj, ?_⟩
      rw [hj', hits_succ, if_neg (by omega)]
    · cases h

/-- C104 (disagreement): if all values are vertices but fewer than `n` of them have incoming edges (in a graph without edges: none), the search never ends. -/
theorem random_sources_never_end (h : Closed adj) {sched : List Nat → List Nat} (hs : ∀ l, (sched l).Perm l) {n : Nat} (hr : ∀ k, draw k < adj.length) (hn : ∀ k, (hits adj draw k).length < n) (o) :
    ¬ buildRandomSources sched draw adj n o := by
  unfold buildRandomSources
  rw [build_degrees_correct h hs]
  have key : ∀ (l : List Nat) (s : List Nat × Nat), (∀ k, (hits adj draw k).length < (hits adj draw s.2).length + l.length) →
      ∀ o, ¬ (l.foldlM (fun s _ => drawSource (degs adj) draw s) s) o := by
    intro l
    induction l with
    | nil => intro s h2; exact absurd (h2 s.2) (by simp)
    | cons x l ih =>
      intro s h2 o ho
      rw [List.foldlM_cons] at ho
      have hd : ∀ o, drawSource (degs adj) draw s o → ∃ t, o = .ok t ∧ (hits adj draw t.2).length = (hits adj draw s.2).length + 1 := by
        rintro o (⟨a, ha, rfl⟩ | ⟨f, hf, rfl⟩)
        · obtain ⟨j, e, hj⟩ := draw_outcome hr ha
          cases e
          exact ⟨_, rfl, hj⟩
        · obtain ⟨j, e, -⟩ := draw_outcome hr hf
          cases e
      rcases ho with ⟨t, ht, ho⟩ | ⟨f, hf, -⟩
      · obtain ⟨t', e, ht'⟩ := hd _ ht
        cases e
        refine ih t (fun k => ?_) o ho
        have := h2 k
        simp only [List.length_cons] at this
        omega
      · obtain ⟨_, e, -⟩ := hd _ hf
        cases e
  rintro (⟨d, hd, ho⟩ | ⟨f, hf, -⟩)
  · cases hd
    rcases ho with ⟨t, ht, -⟩ | ⟨f, hf, -⟩
    · exact key _ _ (by simpa [hits] using hn) _ ht
    · exact key _ _ (by simpa [hits] using hn) _ hf
  · cases hf

/-- C104 (disagreement): incoming and not outgoing edges are counted, so that a source without any outgoing edge can be chosen. -/
theorem random_sources_dead_end : ∃ (adj : List (List Nat)) (draw : Nat → Nat), Closed adj ∧ InDistribution adj draw ∧
    Run.Gives (buildRandomSources id draw adj 1) fun sources => sources = [1] ∧ adj[1]? = some [] := by
  refine ⟨[[1], []], fun _ => 1, by decide, fun k => ⟨Nat.zero_le _, by show 1 ≤ 2; omega⟩, ?_⟩
  refine (random_sources_partial (K := 1) (by decide) (fun l => List.Perm.refl _) (by decide) (by decide)).mono ?_
  rintro s ⟨h, -, -⟩
  exact ⟨by rw [h]; decide, rfl⟩

end

/-- The hypotheses of the theorems hold for a graph with the edges 0-1, 0-2 and 3-1 and some sequences of values. -/
example : Closed [[1, 2], [], [], [1]] ∧ (∀ k < 4, (fun k => k % 4) k < [[1, 2], [], [], [1]].length) ∧ hits [[1, 2], [], [], [1]] (fun k => k % 4) 4 = [1, 2] := by decide
example : InDistribution [[1, 2], [], [], [1]] (fun k => k % 5) ∧ (hits [[1, 2], [], [], [1]] (fun k => k % 5) 4).length < 3 ∧ (fun k => k % 5) 4 = [[1, 2], [], [], [1]].length :=
  ⟨fun k => ⟨Nat.zero_le _, by show k % 5 ≤ 4; omega⟩, by decide, by decide⟩
example : ∀ k, (hits [[], []] (fun k => k % 2) k).length < 1 := by
  intro k
  have : hits [[], []] (fun k => k % 2) k = [] := by
    simp [hits, inDegree]
  rw [this]; decide

/-! ## Loading a graph -/

open Spec MM

theorem firstWord_words {cs t : List Char} {ts : List (List Char)} (h : words cs = t :: ts) : firstWord cs = t := by
  obtain ⟨pre, rest, h1, h2, h3, h4, h5, h6⟩ := words_cons h
  unfold firstWord
  have e : cs.dropWhile isSpace = t ++ rest := by
    rw [h1]
    cases t with
    | nil => exact absurd rfl h3
    | cons c t =>
      rw [List.dropWhile_append_of_pos (p := isSpace) h2]
      exact List.dropWhile_cons_of_neg (by
        have := h4 c (by simp)
        show ¬ blank c = true
        rw [this]; decide)
  rw [e]
  exact (takeWhile_word (p := fun c => !isSpace c) (fun c hc => by have := h4 c hc; show (!blank c) = true; rw [this]; rfl) (by
    rcases h5 with h5 | ⟨d, r, e, hd⟩
    · exact .inl h5
    · exact .inr ⟨d, r, e, by show (!blank d) = false; rw [hd]; rfl⟩)).1

theorem firstWord_described {text : List Char} {F : MMFile} (h : Describes text F) : firstWord text = kwBanner := by
  obtain ⟨header, comments, size, lines, hl, ⟨a, b, hw⟩, -⟩ := h
  obtain ⟨more, hm⟩ := words_lines hl
  rw [List.cons_append, List.flatMap_cons, hw] at hm
  exact firstWord_words hm

/-- C105: loading a file written by serialize gives the edge list (closed) that was written, for every list `mm` that read_mm might give. -/
theorem load_graph_binary {α : Type} (k d : Nat) (fs : List (Bin.Field α)) (mm : List Char → Res (EdgeList α)) (el : EdgeList α) (hd : d < 2 ^ 32) (hfs : Bin.FieldsOk fs)
    (hnum : fs.length + 2 < 2 ^ 64) (hel : Bin.InMemory k fs el) :
    loadGraph k fs mm (Bin.writeEdgeList d (Bin.imageOf k fs el)) = .ok (Bin.imageOf k fs el.closeForPushBack) := by
  have hw : firstWord (chars (Bin.writeEdgeList d (Bin.imageOf k fs el))) = "NW".toList := by
    have : ∃ rest, chars (Bin.writeEdgeList d (Bin.imageOf k fs el)) = 'N' :: 'W' :: ' ' :: rest := by
      unfold Bin.writeEdgeList
      rw [List.append_assoc, List.append_assoc]
      generalize Bin.le 4 d ++ _ = x
      exact ⟨("Graph index_edge_list".toList ++ [Char.ofNat 0, Char.ofNat 0, Char.ofNat 0]) ++ chars x, by
        unfold chars
        rw [List.map_append]
        rfl⟩
    obtain ⟨rest, e⟩ := this
    rw [e]
    rfl
  unfold loadGraph
  rw [if_pos hw]
  have := Bin.edgelist_binary_roundtrip k d fs el (EdgeList.new 0) [] hd hfs hnum hel
  rw [List.append_nil] at this
  rw [this]
  rfl

/-- C105: loading a coordinate Matrix Market file gives what read_mm gives. -/
theorem load_graph_text {α : Type} (k : Nat) (fs : List (Bin.Field α)) (mm : List Char → Res (EdgeList α)) {bytes : List UInt8} {F : MMFile} (h : Describes (chars bytes) F) {el : EdgeList α}
    (hmm : mm (chars bytes) = .ok el) : loadGraph k fs mm bytes = .ok (Bin.imageOf k fs el) := by
  unfold loadGraph
  rw [firstWord_described h, if_neg (by decide), if_pos (show kwBanner = "%%MatrixMarket".toList from rfl), hmm]
  rfl

/-- C105, directed graphs: the edges are those of the file. -/
theorem load_graph_directed {α : Type} (V : Val α) (k w : Nat) (fs : List (Bin.Field α)) {bytes : List UInt8} {F : MMFile} (h : Describes (chars bytes) F) (hf : Fits w F) :
    ∃ el, loadGraph k fs (readDirected V w) bytes = .ok (Bin.imageOf k fs el) ∧ el.elems = .ok (directedEdges V F) ∧ F.rows ≤ el.numVertices := by
  obtain ⟨el, h1, h2, h3, -⟩ := read_mm_directed V (chars bytes) F h hf
  exact ⟨el, load_graph_text k fs _ h h1, h2, h3⟩

/-- C105, undirected graphs. -/
theorem load_graph_undirected {α : Type} (V : Val α) (k w : Nat) (fs : List (Bin.Field α)) {bytes : List UInt8} {F : MMFile} (h : Describes (chars bytes) F) (hf : Fits w F) :
    ∃ el, loadGraph k fs (readUndirected V w) bytes = .ok (Bin.imageOf k fs el) ∧ el.elems = .ok (undirectedEdges V F) ∧ F.rows ≤ el.numVertices := by
  obtain ⟨el, h1, h2, h3, -⟩ := read_mm_undirected V (chars bytes) F h hf
  exact ⟨el, load_graph_text k fs _ h h1, h2, h3⟩

/-- C105: a file of sources gives its vertices (with zero-based numbers) if there are as many as required, and ends the program otherwise. -/
theorem load_sources_correct {w : Nat} {text : List Char} {vals : List Nat} (hd : DescribesVector text vals) (hw : w ≤ 64) (hlen : vals.length < 2 ^ 64) (hfit : ∀ v ∈ vals, 1 ≤ v ∧ v < 2 ^ w) (n : Nat) :
    loadSources w text n = if n = 0 ∨ vals.length = n then .ok (vals.map (· - 1)) else .error .terminated := by
  unfold loadSources
  rw [read_mm_vector_partial text vals hd hw hlen hfit, res_bind_ok]
  simp only [List.length_map]
  by_cases h0 : n = 0
  · rw [if_neg (by tauto), if_pos (.inl h0)]; rfl
  · by_cases h1 : vals.length = n
    · rw [if_neg (by tauto), if_pos (.inr h1)]; rfl
    · rw [if_pos ⟨h0, h1⟩, if_neg (by tauto)]

/-- The text of the example file as bytes. -/
example : ∃ bytes, chars bytes = exText ∧ Describes (chars bytes) exFile ∧ Fits 32 exFile := by
  refine ⟨exText.map fun c => UInt8.ofNat c.toNat, ?_, ?_, exFile_fits⟩
  · decide +kernel
  · have : chars (exText.map fun c => UInt8.ofNat c.toNat) = exText := by decide +kernel
    rw [this]
    exact exText_describes

end NW.Bench
