import Verif.Lemmas.Brandes

/-! # Property C40: sequential betweenness centrality -/

namespace NW.Brandes
open Spec

variable {α : Type}

/-- The scores of all vertices, with every vertex as a source. -/
def exactScores (g : Rows α) : List ℚ := (List.range g.length).map fun v => betweenness g (List.range g.length) v

theorem nw_eq_length {g : Rows α} (hg : InRange g) {s t d : Nat} (hs : s < g.length) (h : IsDist g s t d) : nw g d s t = (shortestPaths g s t).length := by
  rw [shortestPaths_eq hg hs h]; rfl

theorem source_gives_of (M : Nat) {g : Rows α} (hg : InRange g) {s : Nat} (hfit : ∀ t < g.length, (shortestPaths g s t).length < M)
    (hs : s < g.length) {cent : List ℚ} {c0 : Nat → ℚ} (hc : Vec g.length c0 cent) :
    Run.Gives (source M g cent s) (Vec g.length fun v => c0 v + if v ≠ s then dependency g s v else 0) := by
  unfold source
  obtain ⟨st, hst⟩ : ∃ st, fwdInit M g.length s = .ok st := by
    unfold fwdInit
    rw [vset_of_lt (by simpa using hs), res_bind_ok, vset_of_lt (by simpa using hs), res_bind_ok]
    exact ⟨_, rfl⟩
  refine (Run.gives_lift hst (Q := (· = st)) rfl).bind ?_
  rintro _ rfl
  refine (fwd_gives M hg hs _ hst).bind ?_
  rintro r ⟨done, D, par, G, Pf, hQ, hF⟩
  obtain ⟨x, h1, h2⟩ := back_correct hg hs hF hQ (fun t d hd => by
    rw [nw_eq_length hg hs hd]
    exact hfit t (hd.1.lt hg hs)) hc s
  refine (Run.gives_lift h1 (Q := (· = x)) rfl).bind ?_
  rintro _ rfl
  exact Run.gives_pure h2

theorem Vec.eq_map {β : Type} {n : Nat} {f : Nat → β} {a : List β} (h : Vec n f a) : a = (List.range n).map f := by
  apply List.ext_getElem?
  intro i
  rcases Nat.lt_or_ge i n with hi | hi
  · rw [h.2 i hi, List.getElem?_map, List.getElem?_range hi]; rfl
  · rw [List.getElem?_eq_none (by rw [h.1]; exact hi), List.getElem?_eq_none (by simpa using hi)]

theorem scores_gives (M : Nat) {g : Rows α} (hg : InRange g) (hfit : ∀ s < g.length, ∀ t < g.length, (shortestPaths g s t).length < M) :
    Run.Gives (scores M g) (· = exactScores g) := by
  unfold scores
  refine Run.Gives.mono (Run.gives_foldlM (fun pre c => Vec g.length (fun v => betweenness g pre v) c) ?_ ?_) fun c hc => hc.eq_map
  · exact (Vec.replicate g.length (0 : ℚ)).congr fun v _ => by simp [betweenness]
  · intro pre s post hl c hc
    have hs : s < g.length := by
      have : s ∈ List.range g.length := by rw [hl]; simp
      simpa using this
    refine (source_gives_of M hg (hfit s hs) hs hc).mono fun c' hc' => hc'.congr fun v _ => ?_
    unfold betweenness
    rw [List.filter_append, List.map_append, List.sum_append]
    congr 1
    by_cases e : v = s
    · simp [e]
    · have : s ≠ v := fun h => e h.symm
      simp [e, this]

/-- C40.  Without normalisation `brandes_bc` returns the betweenness of every vertex: the sum over all sources and targets other than the vertex of
the fraction of shortest paths that pass through it.  The numbers of shortest paths have to fit the type used for counting. -/
theorem brandes_bc_exact (M : Nat) (g : Rows α) (hg : InRange g) (hfit : ∀ s < g.length, ∀ t < g.length, (shortestPaths g s t).length < M) :
    Run.Gives (brandesBc M g false) (· = (List.range g.length).map fun v => some (betweenness g (List.range g.length) v)) := by
  unfold brandesBc
  refine (scores_gives M hg hfit).bind ?_
  rintro _ rfl
  simp only [Bool.false_eq_true, if_false]
  refine Run.gives_pure ?_
  rw [exactScores, List.map_map]; rfl

theorem foldl_max (x : ℚ) (xs : List ℚ) : xs.foldl max x ∈ x :: xs ∧ ∀ y ∈ x :: xs, y ≤ xs.foldl max x := by
  induction xs generalizing x with
  | nil => simp
  | cons a xs ih =>
    obtain ⟨h1, h2⟩ := ih (max x a)
    rw [List.foldl_cons]
    refine ⟨?_, ?_⟩
    · rcases List.mem_cons.1 h1 with h | h
      · rw [h]
        rcases max_choice x a with e | e <;> rw [e] <;> simp
      · simp [h]
    · intro y hy
      have h0 := h2 (max x a) (by simp)
      rcases List.mem_cons.1 hy with rfl | hy
      · exact le_trans (le_max_left _ _) h0
      · rcases List.mem_cons.1 hy with rfl | hy
        · exact le_trans (le_max_right _ _) h0
        · exact h2 y (by simp [hy])

/-- C40.  With normalisation every score is divided by the largest one.  If no vertex lies between others, all results are "not a number". -/
theorem brandes_bc_normalised (M : Nat) (g : Rows α) (hg : InRange g) (hfit : ∀ s < g.length, ∀ t < g.length, (shortestPaths g s t).length < M)
    (hn : 0 < g.length) :
    Run.Gives (brandesBc M g true) fun r => ∃ b ∈ exactScores g, (∀ y ∈ exactScores g, y ≤ b) ∧
      (b ≠ 0 → r = (exactScores g).map fun y => some (y / b)) ∧ (b = 0 → r = List.replicate g.length none) := by
  unfold brandesBc
  refine (scores_gives M hg hfit).bind ?_
  rintro _ rfl
  simp only [if_true]
  have hlen : (exactScores g).length = g.length := by simp [exactScores]
  cases hc : exactScores g with
  | nil => rw [hc] at hlen; simp at hlen; omega
  | cons x xs =>
    obtain ⟨h1, h2⟩ := foldl_max x xs
    refine Run.gives_lift (a := _) rfl ⟨xs.foldl max x, h1, h2, ?_, ?_⟩
    · intro hb
      apply List.map_congr_left
      intro y _
      rw [if_neg hb]
    · intro hb
      rw [List.eq_replicate_iff]
      refine ⟨by rw [List.length_map, ← hc, hlen], ?_⟩
      intro y hy
      obtain ⟨z, -, rfl⟩ := List.mem_map.1 hy
      rw [if_pos hb]

/-- The normalisation of the scores of the empty graph dereferences the end of an empty range. -/
theorem brandes_bc_empty (M : Nat) : Run.Faults (brandesBc M ([] : Rows α) true) .emptyContainer := by
  have h : Run.Gives (scores M ([] : Rows α)) (· = []) := Run.gives_pure rfl
  unfold brandesBc
  refine h.bind_faults ?_
  rintro _ rfl
  simp only [if_true]
  exact Run.faults_lift rfl

/-! ## Examples: a square with a tail, 0 → 1, 0 → 2, 1 → 3, 2 → 3, 3 → 4 -/

def exG : Rows Unit := [[(1, ()), (2, ())], [(3, ())], [(3, ())], [(4, ())], []]

theorem exG_inRange : InRange exG := by decide
theorem exG_fit : ∀ s < exG.length, ∀ t < exG.length, (shortestPaths exG s t).length < 2 ^ 64 := by decide +kernel

/-- Vertex 1 lies on half of the paths 0 → 3 and 0 → 4; vertex 3 on all paths from 0, 1, 2 to 4. -/
theorem exG_scores : exactScores exG = [0, 1, 1, 3, 0] := by decide +kernel

example : Run.Gives (brandesBc (2 ^ 64) exG false) (· = [some 0, some 1, some 1, some 3, some 0]) := by
  refine (brandes_bc_exact (2 ^ 64) exG exG_inRange exG_fit).mono fun r hr => ?_
  rw [hr]
  have := congrArg (List.map some) exG_scores
  rw [exactScores, List.map_map] at this
  exact this

/-- A single edge: all normalised scores are "not a number". -/
example : Run.Gives (brandesBc (2 ^ 64) [[(1, ())], []] true) (· = [none, none]) := by
  refine (brandes_bc_normalised (2 ^ 64) [[(1, ())], []] (by decide) (by decide +kernel) (by decide)).mono ?_
  rintro r ⟨b, hb, -, -, h0⟩
  refine h0 ?_
  have : exactScores ([[(1, ())], []] : Rows Unit) = [0, 0] := by decide +kernel
  rw [this] at hb
  simpa using hb

end NW.Brandes
