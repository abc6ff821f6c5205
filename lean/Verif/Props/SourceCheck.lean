import Verif.Model.Tools
import Verif.Props.Bench
import Verif.Props.PrBench
import Mathlib.Data.List.Count

/-!
# C119: the tool that checks a file of sources
-/

namespace NW.Tools
open Spec MM Bench CcBench

variable {L : CcBench.Lib} {el : EdgeList Unit} {draw : Nat → Nat} {w : Nat} {text : List Char} {vals : List Nat}

/-- Of the first `K` vertices drawn, those that at least one edge leaves, in order. -/
def picks (es : List (Nat × Nat × Unit)) (draw : Nat → Nat) (K : Nat) : List Nat :=
  ((List.range K).map draw).filter fun v => decide (0 < outDegree es v)

theorem source_rows (hL : L.Conforms) (he : Loaded el) : ∃ g, CcBench.adjacency L true 1 el = .ok g ∧ g.length = el.numVertices ∧
    Closed (g.map fun r => r.map Prod.fst) ∧ ∀ j, inDegree (g.map fun r => r.map Prod.fst) j = outDegree el.contents j := by
  obtain ⟨g, h1, h2, h3⟩ := PrBench.rows_ok hL.build he
  have hrow : ∀ i (hi : i < g.length), ((g[i]'hi).map Prod.fst).Perm ((inEdges el.contents i).map Prod.fst) := fun i hi => by
    have := (h3 i (by omega)).map Prod.fst
    rwa [List.getD_eq_getElem?_getD, List.getElem?_eq_getElem hi] at this
  refine ⟨g, h1, h2, ?_, ?_⟩
  · intro l hl v hv
    obtain ⟨r, hr, rfl⟩ := List.mem_map.1 hl
    obtain ⟨i, hi, rfl⟩ := List.mem_iff_getElem.1 hr
    obtain ⟨x, hx, rfl⟩ := List.mem_map.1 ((hrow i hi).mem_iff.1 hv)
    unfold inEdges at hx
    obtain ⟨y, hy, rfl⟩ := List.mem_map.1 hx
    rw [List.length_map, h2]
    exact (he.below y (List.mem_filter.1 hy).1).1
  · intro j
    unfold inDegree
    rw [← PrBench.count_inEdges el.numVertices j el.contents he.below, ← PrBench.sum_range_list, ← h2, List.map_map]
    congr 1
    refine List.ext_getElem (by simp) fun i hi hi' => ?_
    simp only [List.length_map] at hi
    simp only [List.getElem_map, Function.comp, List.getElem_range]
    exact (hrow i hi).count_eq j

theorem failures_ok {a b : List Nat} (h : a.length ≤ b.length) : failures a b = .ok ((List.range a.length).countP fun i => decide (a.getD i 0 ≠ b.getD i 0)) := by
  unfold failures
  suffices ∀ (l : List Nat) (n : Nat), (∀ i ∈ l, i < a.length) → l.foldlM (fun n i => do
      let a ← vget a i
      let b ← vget b i
      return if a ≠ b then n + 1 else n) n = (.ok (n + l.countP fun i => decide (a.getD i 0 ≠ b.getD i 0)) : Res Nat) by
    rw [this _ 0 fun i hi => List.mem_range.1 hi, Nat.zero_add]
  intro l
  induction l with
  | nil => intro n _; rfl
  | cons i l ih =>
    intro n hl
    have hi := hl i (by simp)
    have hi' : i < b.length := by omega
    rw [List.foldlM_cons, vget_of_lt hi, res_bind_ok, vget_of_lt hi', res_bind_ok, res_pure, res_bind_ok, ih _ fun j hj => hl j (by simp [hj]), List.countP_cons]
    simp only [List.getD_eq_getElem?_getD, List.getElem?_eq_getElem hi, List.getElem?_eq_getElem hi', Option.getD_some, decide_eq_true_eq]
    congr 1
    split <;> omega

/-- C119 (partial: provided that the number `num_vertices` is not drawn too early). The number that is printed is the number of positions at which the file, which counts vertices from 1,
and the random sources differ; the random sources are, of the vertices drawn, those that at least one edge leaves. -/
theorem verify_sources_partial (hL : L.Conforms) (he : Loaded el) (hd : DescribesVector text vals) (hw : w ≤ 64) (hlen : vals.length < 2 ^ 64) (hfit : ∀ v ∈ vals, 1 ≤ v ∧ v < 2 ^ w)
    {iterations trials K : Nat} (hn : vals.length = trials * iterations) (hK : ∀ k < K, draw k < el.numVertices) (henough : vals.length ≤ (picks el.contents draw K).length) :
    Run.Gives (verifySources L draw w iterations trials text el) fun r => ∃ n, r = some n ∧
      n = ((List.range vals.length).countP fun i => decide (vals.getD i 0 ≠ (picks el.contents draw K).getD i 0 + 1)) ∧
      (n = 0 ↔ vals = ((picks el.contents draw K).take vals.length).map (· + 1)) := by
  obtain ⟨g, g1, g2, g3, g4⟩ := source_rows hL he
  have hh : hits (g.map fun r => r.map Prod.fst) draw K = picks el.contents draw K := by
    unfold hits picks
    congr 1
    funext v
    rw [g4]
  have hcnt : ((List.range vals.length).countP fun i => decide (((vals.map (· - 1)).getD i 0 ≠ ((picks el.contents draw K).take vals.length).getD i 0))) =
      ((List.range vals.length).countP fun i => decide (vals.getD i 0 ≠ (picks el.contents draw K).getD i 0 + 1)) := by
    refine List.countP_congr fun i hi => ?_
    have hi := List.mem_range.1 hi
    have hi' : i < (picks el.contents draw K).length := by omega
    have := (hfit vals[i] (List.getElem_mem hi)).1
    simp only [decide_eq_true_eq, List.getD_eq_getElem?_getD, List.getElem?_map, List.getElem?_take, hi, if_true, List.getElem?_eq_getElem hi, List.getElem?_eq_getElem hi', Option.map_some,
      Option.getD_some]
    omega
  unfold verifySources
  refine (Run.gives_lift (read_mm_vector_partial text vals hd hw hlen hfit) rfl (Q := (· = vals.map (· - 1)))).bind ?_
  rintro _ rfl
  rw [if_neg (by simpa using hn)]
  refine (Run.gives_lift g1 rfl (Q := (· = g))).bind ?_
  rintro _ rfl
  refine (random_sources_partial (K := K) g3 hL.sched (by simpa [g2] using hK) (by simpa [hh] using henough)).bind ?_
  rintro s ⟨hs, hsl, -⟩
  rw [hh, List.length_map] at hs
  subst hs
  have hf := failures_ok (a := vals.map (· - 1)) (b := (picks el.contents draw K).take vals.length) (by simp [henough])
  rw [List.length_map, hcnt] at hf
  refine (Run.gives_lift hf rfl (Q := (· = _))).bind ?_
  rintro _ rfl
  refine Run.gives_pure ⟨_, rfl, rfl, ?_⟩
  rw [List.countP_eq_zero]
  constructor
  · intro h
    refine List.ext_getElem (by simp [henough]) fun i hi hi' => ?_
    have hi2 : i < (picks el.contents draw K).length := by omega
    have := h i (List.mem_range.2 hi)
    simpa [List.getD_eq_getElem?_getD, List.getElem?_eq_getElem hi, List.getElem?_eq_getElem hi2] using this
  · intro h i hi
    have hi := List.mem_range.1 hi
    have hi2 : i < (picks el.contents draw K).length := by omega
    have e := congrArg (fun l => l.getD i 0) h
    simp only [List.getD_eq_getElem?_getD, List.getElem?_map, List.getElem?_take, hi, if_true, List.getElem?_eq_getElem hi, List.getElem?_eq_getElem hi2, Option.map_some, Option.getD_some] at e
    simp [List.getD_eq_getElem?_getD, List.getElem?_eq_getElem hi, List.getElem?_eq_getElem hi2, e]

/-- C119. If the file does not list `trials * iterations` sources, that is all the tool says. -/
theorem verify_sources_count (hd : DescribesVector text vals) (hw : w ≤ 64) (hlen : vals.length < 2 ^ 64) (hfit : ∀ v ∈ vals, 1 ≤ v ∧ v < 2 ^ w)
    {iterations trials : Nat} (hn : vals.length ≠ trials * iterations) : Run.Gives (verifySources L draw w iterations trials text el) fun r => r = none := by
  unfold verifySources
  refine (Run.gives_lift (read_mm_vector_partial text vals hd hw hlen hfit) rfl (Q := (· = vals.map (· - 1)))).bind ?_
  rintro _ rfl
  rw [if_pos (by simpa using hn)]
  exact Run.gives_pure rfl

/-- C119 (disagreement). The range of the random numbers includes `num_vertices`: if that is drawn before enough sources are found, the degrees are read out of bounds. -/
theorem verify_sources_out_of_bounds (hL : L.Conforms) (he : Loaded el) (hd : DescribesVector text vals) (hw : w ≤ 64) (hlen : vals.length < 2 ^ 64) (hfit : ∀ v ∈ vals, 1 ≤ v ∧ v < 2 ^ w)
    {iterations trials K : Nat} (hn : vals.length = trials * iterations) (hK : ∀ k < K, draw k < el.numVertices) (hout : draw K = el.numVertices)
    (hfew : (picks el.contents draw K).length < vals.length) : Run.Faults (verifySources L draw w iterations trials text el) .outOfBounds := by
  obtain ⟨g, g1, g2, g3, g4⟩ := source_rows hL he
  have hh : hits (g.map fun r => r.map Prod.fst) draw K = picks el.contents draw K := by
    unfold hits picks
    congr 1
    funext v
    rw [g4]
  unfold verifySources
  refine (Run.gives_lift (read_mm_vector_partial text vals hd hw hlen hfit) rfl (Q := (· = vals.map (· - 1)))).bind_faults ?_
  rintro _ rfl
  rw [if_neg (by simpa using hn)]
  refine (Run.gives_lift g1 rfl (Q := (· = g))).bind_faults ?_
  rintro _ rfl
  exact (random_sources_out_of_bounds (K := K) g3 hL.sched (by simpa [g2] using hK) (by simpa [g2] using hout) (by simpa [hh] using hfew)).bind

/-- A file that lists the sources 5 and 6. -/
def exVector : List Char := "%%MatrixMarket matrix array integer general".toList ++ '\n' :: ("2 1".toList ++ '\n' :: ("5".toList ++ '\n' :: "6".toList))

theorem exVector_describes : DescribesVector exVector [5, 6] :=
  ⟨"%%MatrixMarket matrix array integer general".toList, [], "2 1".toList, ["5".toList, "6".toList],
    .cons (by decide +kernel) (.cons (by decide +kernel) (.cons (by decide +kernel) (.last (by decide +kernel) (by decide +kernel)))),
    ⟨"matrix".toList, "array".toList, "integer".toList, kwGeneral, by decide +kernel, .inr rfl⟩, by simp,
    ⟨['2'], ['1'], by decide +kernel, ⟨by decide +kernel, by decide +kernel, by decide +kernel⟩, ⟨by decide +kernel, by decide +kernel, by decide +kernel⟩⟩,
    .cons ⟨by decide +kernel, by decide +kernel, by decide +kernel⟩ (.cons ⟨by decide +kernel, by decide +kernel, by decide +kernel⟩ .nil)⟩

/-- The vertices drawn are 5, which no edge leaves, 4, 5 and 2; then the number of vertices, 7. -/
def exDraw (k : Nat) : Nat := [5, 4, 5, 2].getD k 7

/-- One of the two sources is as expected; with three sources asked for only the number is wrong. -/
example : Run.Gives (verifySources CcBench.exLib exDraw 32 2 1 exVector CcBench.exEl) (fun r => r = some 1) ∧
    Run.Gives (verifySources CcBench.exLib exDraw 32 3 1 exVector CcBench.exEl) (fun r => r = none) := by
  refine ⟨(verify_sources_partial (K := 4) CcBench.exLib_conforms CcBench.exEl_loaded exVector_describes (by decide) (by decide) (by decide) (by decide) (by decide +kernel) (by decide +kernel)).mono ?_,
    verify_sources_count exVector_describes (by decide) (by decide) (by decide) (by decide)⟩
  rintro r ⟨n, rfl, h, -⟩
  rw [h]
  decide +kernel

/-- The number of vertices is drawn too early. -/
example : Run.Faults (verifySources CcBench.exLib (fun k => [5, 4].getD k 7) 32 2 1 exVector CcBench.exEl) .outOfBounds :=
  verify_sources_out_of_bounds (K := 2) CcBench.exLib_conforms CcBench.exEl_loaded exVector_describes (by decide) (by decide) (by decide) (by decide) (by decide +kernel) (by decide +kernel) (by decide +kernel)

end NW.Tools
