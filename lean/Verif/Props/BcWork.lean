import Verif.Lemmas.BcWorkBack
import Verif.Props.BcExp

/-!
# C106: approx_betweenness_worklist_serial

The version with a work list of edges computes the betweenness of the graph in which parallel edges are counted once.
-/

namespace NW.BcWork
open Spec
open NW.Brandes (Vec)
open NW.BcExp (Fits Result exact betweenness_eq normalise_gives)

variable {α : Type}

theorem source_gives (M : Nat) {inf : Nat} {ord : Nat → List Nat → List Nat} (hord : ∀ v l, (ord v l).Perm l) {g : Rows α} (hg : InRange g) (hinf : g.length < inf) {s : Nat} (hs : s < g.length)
    (hfit : ∀ t < g.length, (shortestPaths (simple g) s t).length < M) {cent : List ℚ} {c0 : Nat → ℚ} (hc : Vec g.length c0 cent) :
    Run.Gives (source M inf ord g cent s) (Vec g.length fun v => c0 v + if v ≠ s then dependency (simple g) s v else 0) := by
  have hg' := simple_inRange hg
  have hs' : s < (simple g).length := by rw [simple_length]; exact hs
  have hfit' : ∀ t d, IsDist (simple g) s t d → nw (simple g) d s t < M := fun t d hd => by
    rw [Brandes.nw_eq_length hg' hs' hd]
    exact hfit t (by have := hd.1.lt hg' hs'; rwa [simple_length] at this)
  unfold source
  obtain ⟨vs, hvs, -⟩ := modify_vec (Vec.replicate g.length { l := inf, pc := 0, preds := [], succs := [], edge := fun _ => (0, 0) }) hs fun x => { x with l := 0, pc := 1 % M }
  have hvs : init M inf g.length s = .ok vs := hvs
  refine (Run.gives_lift hvs (Q := (· = vs)) rfl).bind ?_
  rintro _ rfl
  refine (Run.gives_lift (vget_of_lt hs) (Q := (· = g[s]'hs)) rfl).bind ?_
  rintro _ rfl
  refine (search_gives M hord hg hinf hs hvs).bind ?_
  rintro r ⟨done, D, par, G, Pf, h⟩
  exact back_gives hord hg hs h hfit' hc

theorem scores_gives (M : Nat) {inf : Nat} {ord : Nat → Nat → List Nat → List Nat} (hord : ∀ k v l, (ord k v l).Perm l) {g : Rows α} (hg : InRange g) (hinf : g.length < inf) {sources : List Nat}
    (hs : ∀ s ∈ sources, s < g.length) (hfit : Fits M (simple g) sources) : Run.Gives (scores M inf ord g sources) (· = exact (simple g) sources) := by
  unfold scores
  have hz : sources = sources.zipIdx.map Prod.fst := by simp
  refine Run.Gives.mono (Run.gives_foldlM (fun pre c => Vec g.length (fun v => betweenness (simple g) (pre.map Prod.fst) v) c) ?_ ?_) fun c hc => ?_
  · exact (Vec.replicate g.length (0 : ℚ)).congr fun v _ => by simp [betweenness]
  · rintro pre ⟨s, k⟩ post hl c hc
    have hm : s ∈ sources := by rw [hz, hl]; simp
    refine (source_gives M (hord k) hg hinf (hs s hm) (fun t ht => hfit s hm t (by rw [simple_length]; exact ht)) hc).mono fun c' hc' => hc'.congr fun v _ => ?_
    rw [betweenness_eq, betweenness_eq]
    simp
  · rw [← hz] at hc
    unfold exact
    rw [simple_length]
    exact hc.eq_map

/-- C106.  `approx_betweenness_worklist_serial` ends without a fault and returns, divided by the largest score, the betweenness of every vertex with respect to the given sources in the graph
without parallel edges, in whatever order the sets of predecessors and successors are visited. -/
theorem worklist_serial_correct (M inf : Nat) (ord : Nat → Nat → List Nat → List Nat) (hord : ∀ k v l, (ord k v l).Perm l) (g : Rows α) (hg : InRange g) (hn : 0 < g.length) (hinf : g.length < inf)
    (sources : List Nat) (hs : ∀ s ∈ sources, s < g.length) (hfit : Fits M (simple g) sources) :
    Run.Gives (worklistSerial M inf ord g sources) (Result (exact (simple g) sources) true) := by
  unfold worklistSerial
  refine (scores_gives M hord hg hinf hs hfit).bind ?_
  rintro _ rfl
  obtain ⟨r, h1, h2⟩ := normalise_gives (c := exact (simple g) sources) (by simpa [exact, simple_length] using hn)
  exact Run.gives_lift h1 h2

theorem eraseDups_of_nodup {l : List Nat} (h : l.Nodup) : l.eraseDups = l := by
  induction l using List.reverseRecOn with
  | nil => rfl
  | append_singleton l w ih =>
    rw [List.nodup_append] at h
    rw [eraseDups_snoc, if_neg fun hh => h.2.2 w hh w (by simp) rfl, ih h.1]

theorem walksFrom_simple {g : Rows α} (hp : ∀ u, (nbrs g u).Nodup) (k s : Nat) : walksFrom (simple g) k s = walksFrom g k s := by
  induction k generalizing s with
  | zero => rfl
  | succ k ih =>
    unfold walksFrom
    rw [nbrs_simple, eraseDups_of_nodup (hp s)]
    congr 1
    funext u
    rw [ih]

theorem shortestPaths_simple {g : Rows α} (hp : ∀ u, (nbrs g u).Nodup) (s t : Nat) : shortestPaths (simple g) s t = shortestPaths g s t := by
  unfold shortestPaths paths
  rw [simple_length]
  simp only [walksFrom_simple hp]

theorem exact_simple {g : Rows α} (hp : ∀ u, (nbrs g u).Nodup) (sources : List Nat) : exact (simple g) sources = exact g sources := by
  unfold exact betweenness dependency throughFraction
  simp only [shortestPaths_simple hp, simple_length]

/-- C106.  In a graph without parallel edges these are the scores of the other versions. -/
theorem worklist_serial_no_parallel (M inf : Nat) (ord : Nat → Nat → List Nat → List Nat) (hord : ∀ k v l, (ord k v l).Perm l) (g : Rows α) (hg : InRange g) (hp : ∀ u, (nbrs g u).Nodup)
    (hn : 0 < g.length) (hinf : g.length < inf) (sources : List Nat) (hs : ∀ s ∈ sources, s < g.length) (hfit : Fits M g sources) :
    Run.Gives (worklistSerial M inf ord g sources) (Result (exact g sources) true) := by
  rw [← exact_simple hp]
  refine worklist_serial_correct M inf ord hord g hg hn hinf sources hs fun s hm t ht => ?_
  rw [shortestPaths_simple hp]
  rw [simple_length] at ht
  exact hfit s hm t ht

/-- The normalisation of the scores of the empty graph dereferences the end of an empty range. -/
theorem worklist_serial_empty (M inf : Nat) (ord : Nat → Nat → List Nat → List Nat) : Run.Faults (worklistSerial M inf ord ([] : Rows α) []) .emptyContainer := by
  have h : Run.Gives (scores M inf ord ([] : Rows α) []) (· = []) := Run.gives_pure rfl
  unfold worklistSerial
  refine h.bind_faults ?_
  rintro _ rfl
  exact Run.faults_lift rfl

/-! ## Examples -/

/-- Two ways from 0 to 3; the edge from 0 to 1 is doubled, and there is a loop at 0. -/
def exP : Rows Unit := [[(0, ()), (1, ()), (1, ()), (2, ())], [(3, ())], [(3, ())], []]

theorem exP_inRange : InRange exP := by
  intro u w h
  have hu : u < 4 := h.src_lt
  revert u w
  intro u w h hu
  have h' : w ∈ nbrs exP u := h
  match u, hu with
  | 0, _ => revert h'; simp [exP, nbrs]; show _ → w < 4; omega
  | 1, _ => revert h'; simp [exP, nbrs]; show _ → w < 4; omega
  | 2, _ => revert h'; simp [exP, nbrs]; show _ → w < 4; omega
  | 3, _ => revert h'; simp [exP, nbrs]

theorem exP_gives : Run.Gives (worklistSerial (2 ^ 64) (2 ^ 32 - 1) (fun _ _ l => l.reverse) exP [0]) (· = [some 0, some 1, some 1, some 0]) := by
  refine (worklist_serial_correct _ _ _ (fun _ _ l => List.reverse_perm l) _ exP_inRange (by decide) (by decide) [0] (by decide) ?_).mono ?_
  · intro s hs t ht
    have h1 : s = 0 := by simpa using hs
    subst h1
    have : ∀ t < 4, (shortestPaths (simple exP) 0 t).length < 2 ^ 64 := by decide +kernel
    exact this t ht
  · intro r hr
    have h0 : exact (simple exP) [0] = [0, 1 / 2, 1 / 2, 0] := by decide +kernel
    unfold Result at hr
    rw [if_pos rfl, h0] at hr
    obtain ⟨b, h1, h2, h3, -⟩ := hr
    have hb : b = 1 / 2 := by
      apply le_antisymm
      · simp at h1
        rcases h1 with rfl | rfl | rfl <;> norm_num
      · exact h2 _ (by simp)
    subst hb
    rw [h3 (by norm_num)]
    norm_num

/-- With parallel edges the scores are not those of the other versions (`exP` again: `bc2_v1` and `approx_betweenness_brandes` give the vertices 1 and 2 different scores). -/
theorem worklist_serial_parallel_edges : ¬ Run.Gives (worklistSerial (2 ^ 64) (2 ^ 32 - 1) (fun _ _ l => l.reverse) exP [0]) (Result (exact exP [0]) true) := by
  intro h
  obtain ⟨o, ho⟩ := h.1
  obtain ⟨r, e1, h1⟩ := h.2 o ho
  obtain ⟨r', e2, h2⟩ := exP_gives.2 o ho
  rw [e1] at e2
  injection e2 with e2
  subst e2
  have h0 : exact exP [0] = [0, 2 / 3, 1 / 3, 0] := by decide +kernel
  unfold Result at h1
  rw [if_pos rfl, h0, h2] at h1
  obtain ⟨b, b1, b2, b3, -⟩ := h1
  have hb := b2 (2 / 3) (by simp)
  have hb0 : b ≠ 0 := by rintro rfl; norm_num at hb
  have := b3 hb0
  simp at this
  have a1 := this.1
  have a2 := this.2
  rw [eq_div_iff hb0] at a1 a2
  linarith

end NW.BcWork
