import Verif.Lemmas.BfsEdges2
import Verif.Lemmas.BfsEdges3
import Verif.Lemmas.BottomUp

/-! # Properties: `bfs_edge_range3`, `dijkstra_er`, `bottomup_bfs_range` (C75, C76, C77) -/

namespace NW.BfsEdges
open Spec Fifo

variable {α : Type}

/-! ## C75 -/

/-- The edges of a breadth-first search tree from `s`: one into every other reachable vertex, from a vertex one level closer, in order of the
distance of their targets. -/
structure TreeEdges (g : Rows α) (s : Nat) (es : List (Nat × Nat)) : Prop where
  once : (es.map Prod.snd).Nodup
  reach : ∀ v, v ∈ es.map Prod.snd ↔ (Reachable g s v ∧ v ≠ s)
  edge : ∀ e ∈ es, Edge g e.1 e.2 ∧ ∃ d, IsDist g s e.1 d ∧ IsDist g s e.2 (d + 1)
  sorted : es.Pairwise (fun a b => ∀ x y, IsDist g s a.2 x → IsDist g s b.2 y → x ≤ y)

/-- C75. For every graph with in-range neighbours and every seed, iterating `bfs_edge_range3` ends.  If the seed has a neighbour other than itself it yields the
edges of a breadth-first search tree, each once, in order of distance; otherwise it yields the one pair `(seed, seed)`. -/
theorem bfs_edge_range3_correct (g : Rows α) (hg : InRange g) (seed : Nat) (hs : seed < g.length) :
    ∃ es, Visits3 g seed (.ok es) ∧ ((∃ w, Edge g seed w ∧ w ≠ seed) → TreeEdges g seed es) ∧
      ((∀ w, Edge g seed w → w = seed) → es = [(seed, seed)]) := by
  obtain ⟨cols, q1, D, par, a, b, c, d, -⟩ := pushWhite_spec hg (done := []) (v := seed) [] (g.getD seed []) [] [] _ _ _
    (by simpa using (Inv.init g seed).start) (Cols.init hs) (fun x hx => mem_row hx) (by simp)
  have hI : Inv g seed [seed] q1 D par := by
    have := Mid.finish (g := g) (root := seed) (done := []) (u := seed) (q := q1) (D := D) (par := par) (by simpa [nbrs] using b)
    simpa using this
  have hinit : init3 g seed = .ok { colors := cols, q0 := [seed], q1 := q1 } := by
    unfold init3
    rw [vset_of_lt (by simpa using hs), res_bind_ok, vget_row hs, res_bind_ok, a, res_bind_ok]; rfl
  unfold Visits3
  rw [hinit]
  simp only
  by_cases hq : q1 = []
  · subst hq
    have hself : ∀ w, Edge g seed w → w = seed := by
      intro w hw
      obtain ⟨_, y, _, hy, _⟩ := hI.closed seed (by simp) w hw
      have := (hI.disc w).2 ⟨y, hy⟩
      simpa using this
    refine ⟨[(seed, seed)], ?_, fun ⟨w, hw, hne⟩ => absurd (hself w hw) hne, fun _ => rfl⟩
    have hl : seed < cols.length := by rw [c.1]; exact hs
    refine Loop.step (s' := ({ colors := cols.set seed .black, q0 := [], q1 := [] }, [(seed, seed)])) ?_ (Loop.done ?_)
    · simp [Iter.body, iter3, deref3, next3, vset_of_lt hl]
    · simp [Iter.body, iter3]
  · have hne : ∃ w, Edge g seed w ∧ w ≠ seed := by
      obtain ⟨w, ws, rfl⟩ := List.exists_cons_of_ne_nil hq
      have hws : w ≠ seed := by
        rintro rfl
        have := hI.nodup
        simp at this
      exact ⟨w, (hI.tree w seed hws (d w (by simp))).1, hws⟩
    have : ∃ es, Loop (iter3 g).body ({ colors := cols, q0 := [seed], q1 := q1 }, []) (.ok es) ∧ TreeEdges g seed es := by
      refine Loop.of_rank (fun k p => ∃ D par, At3 g seed D par p.1 p.2 ∧ k + p.2.length = g.length) _ ?_ (k := g.length)
        ⟨D, par, ⟨c, by simp, Or.inl ⟨[], seed, [], rfl, hq, by simpa using hI, d, rfl⟩⟩, rfl⟩
      rintro k ⟨st, acc⟩ ⟨D, par, hat, hk⟩
      simp only at hat hk
      by_cases h0 : st.q0 = []
      · left
        refine ⟨acc, by simp [Iter.body, iter3, h0], ?_⟩
        obtain ⟨-, hacc, ⟨_, _, _, e, _⟩ | ⟨-, hI⟩⟩ := hat
        · rw [h0] at e; cases e
        · have hnd := hI.nodup
          rw [List.append_nil, List.nodup_cons] at hnd
          have hns : ∀ e ∈ acc, e.2 ≠ seed := fun e he heq => hnd.1 (heq ▸ List.mem_map_of_mem he)
          refine ⟨hnd.2, ?_, ?_, ?_⟩
          · intro v
            rw [← hI.mem_done_iff, List.mem_cons]
            constructor
            · intro h
              exact ⟨Or.inr h, by rintro rfl; exact hnd.1 h⟩
            · rintro ⟨h | h, h2⟩
              · exact absurd h h2
              · exact h
          · intro e he
            have hd := (hI.tree_of).edge _ _ (hns e he) (hacc e he)
            exact ⟨(hI.tree _ _ (hns e he) (hacc e he)).1, hd.2⟩
          · have := hI.mono
            rw [List.append_nil, List.pairwise_cons] at this
            exact (List.pairwise_map.1 this.2).imp fun hab x y hx hy => hab x y ((hI.dist _ _).2 hx) ((hI.dist _ _).2 hy)
      · right
        obtain ⟨x, st', D', par', e1, e2, hat'⟩ := next3_spec hg hs hat h0
        have hlen : (acc ++ [x]).length < g.length := by
          obtain ⟨-, -, ⟨done, v, rest, _, h1, hI, _, hord⟩ | ⟨-, hI⟩⟩ := hat'
          · have h2 := hI.length_le hg hs
            have h3 := congrArg List.length hord
            have h4 := List.length_pos_of_ne_nil h1
            simp only [List.length_append, List.length_cons, List.length_map, List.length_nil] at h2 h3 ⊢
            omega
          · have h2 := hI.length_le hg hs
            simp only [List.length_append, List.length_cons, List.length_map, List.length_nil] at h2 ⊢
            omega
        refine ⟨(st', acc ++ [x]), k - 1, ?_, ?_, D', par', hat', ?_⟩
        · simp [Iter.body, iter3, h0, e1, e2]
        · simp only [List.length_append, List.length_singleton] at hlen; omega
        · simp only [List.length_append, List.length_singleton] at hlen ⊢; omega
    obtain ⟨es, h1, h2⟩ := this
    refine ⟨es, h1, fun _ => h2, fun h => ?_⟩
    obtain ⟨w, hw, hne⟩ := hne
    exact absurd (h w hw) hne

/-- Six vertices, two shortest ways to vertex 3, one vertex out of reach. -/
def exGraph : Rows Nat := [[(1, 7), (2, 1)], [(3, 2), (0, 7)], [(3, 4)], [(4, 1), (1, 2)], [], [(0, 1)]]

example : InRange exGraph ∧ 0 < exGraph.length ∧ (∃ w, Edge exGraph 0 w ∧ w ≠ 0) ∧ Visits3 exGraph 0 (.ok [(0, 1), (0, 2), (1, 3), (3, 4)]) ∧
    Visits3 exGraph 4 (.ok [(4, 4)]) :=
  ⟨by decide +kernel, by decide, ⟨1, by decide, by decide⟩, Iter.visits_of_runFuel (n := 9) (by rfl), Iter.visits_of_runFuel (n := 9) (by rfl)⟩

/-! ## C76 -/

/-- C76 fails for every graph and every source: `dijkstra_er` never returns.  Every execution comes to an end, in undefined behaviour. -/
theorem dijkstra_er_never_returns (g : Rows Nat) (source : Nat) :
    (∃ o, dijkstraEr g source o) ∧ ∀ o, dijkstraEr g source o → ∃ f, o = .error f := by
  have h : Run.Safe (dijkstraEr g source) (fun _ => False) := by
    unfold dijkstraEr
    refine (Run.safe_lift (Q := fun _ => True) fun _ _ => trivial).bind fun _ _ => ?_
    refine (Run.safe_lift (Q := fun _ => True) fun _ _ => trivial).bind fun dist _ => ?_
    refine (Run.safe_lift (Q := fun l => ∃ c, l[0]? = some c ∧ c ≠ Color.black) fun l hl => ?_).bind fun cols hc => ?_
    · obtain ⟨h1, rfl⟩ := vset_ok hl
      exact ⟨.grey, by simp at h1; simp [h1], by simp⟩
    · refine (Run.safe_lift (Q := fun _ => True) fun _ _ => trivial).bind fun row _ => ?_
      exact dijkstra_safe g _ dist ⟨by simp, hc⟩
  refine ⟨h.1, fun o ho => ?_⟩
  cases o with
  | ok a => exact (h.2 a ho).elim
  | error f => exact ⟨f, rfl⟩

/-! ## C77 -/

/-- C77, what is true of `bottomup_bfs_range`: for every graph with in-range neighbours and every seed the iteration ends, and yields every vertex of the graph once, in
the order seed, seed + 1, … around the vertex range.  The parent reported with the seed is its first neighbour, or itself if it has none.  For every later vertex it is
a neighbour that has been reported before, if there is one, and the vertex itself if it has no neighbours.  Missing, because false
(`bottomup_bfs_range_not_bfs`): that only reachable vertices are reported, in the order of their distance. -/
theorem bottomup_bfs_range_partial (g : Rows α) (hg : InRange g) (seed : Nat) (hs : seed < g.length) :
    ∃ es, BuVisits g seed (.ok es) ∧ es.map Prod.fst = (List.range g.length).map (fun i => (seed + i) % g.length) ∧
      (∀ v p, es[0]? = some (v, p) → p = (nbrs g v).headD v) ∧
      ∀ i, 0 < i → ∀ v p, es[i]? = some (v, p) → (nbrs g v = [] → p = v) ∧
        ((∃ u, Edge g v u ∧ u ∈ (es.take i).map Prod.fst) → Edge g v p ∧ p ∈ (es.take i).map Prod.fst) := by
  have hpos : 0 < g.length := Nat.lt_of_le_of_lt (Nat.zero_le _) hs
  have hinit : ∃ st, buInit g seed = .ok st ∧ st.parent = (nbrs g seed).headD seed ∧ st.v = seed ∧ BuAt g seed st [] := by
    have hm : ∀ w, w < g.length → ∃ c, vget ((List.replicate g.length Status.ready).set seed .waiting) w = .ok c ∧ (c = .processed ↔ w ∈ ([] : List (Nat × Nat)).map Prod.fst) := by
      intro w hw
      rcases eq_or_ne w seed with e | e
      · subst e; exact ⟨.waiting, by rw [vget_eq_ok]; simp [hw], by simp⟩
      · exact ⟨.ready, by rw [vget_eq_ok, List.getElem?_set_ne (Ne.symm e)]; simp [hw], by simp⟩
    have mk : ∀ par, BuAt g seed { colors := (List.replicate g.length Status.ready).set seed .waiting, v := seed, parent := par, n := 0 } [] := fun par =>
      ⟨by simp, rfl, by simp, by simp, by simp [Nat.mod_eq_of_lt hs], by simp, by simp, fun _ => hm⟩
    unfold buInit
    rw [vset_of_lt (by simpa using hs), res_bind_ok, vget_row hs, res_bind_ok]
    unfold nbrs
    cases hr : g.getD seed [] with
    | nil => exact ⟨_, rfl, rfl, rfl, mk _⟩
    | cons x xs => exact ⟨_, rfl, rfl, rfl, mk _⟩
  obtain ⟨st, h1, h2, h3, h4⟩ := hinit
  unfold BuVisits
  rw [h1]
  simp only
  have : ∃ es, Loop (buIter g).body (st, []) (.ok es) ∧ (es.length = g.length ∧ (∃ st', BuAt g seed st' es) ∧
      ∀ v p, es[0]? = some (v, p) → p = (nbrs g v).headD v) := by
    refine Loop.of_rank (fun k p => BuAt g seed p.1 p.2 ∧ k + p.2.length = g.length ∧ (p.2 = [] → p.1 = st) ∧
      ∀ v q, p.2[0]? = some (v, q) → q = (nbrs g v).headD v) _ ?_ (k := g.length) ⟨h4, rfl, fun _ => rfl, by simp⟩
    rintro k ⟨s, acc⟩ ⟨hat, hk, he, hf⟩
    simp only at hat hk he hf
    by_cases hl : acc.length < g.length
    · right
      obtain ⟨s', e1, e2⟩ := buNext_spec hg hat hl
      refine ⟨(s', acc ++ [(s.v, s.parent)]), k - 1, ?_, by omega, e2, by simp; omega, by simp, ?_⟩
      · have hc : ¬ s.n = g.length := by rw [hat.count]; omega
        simp [Iter.body, buIter, hc, e1]
      · cases acc with
        | nil =>
          have := he rfl
          subst this
          intro v q hvq
          simp at hvq
          obtain ⟨rfl, rfl⟩ := hvq
          rw [h3]; exact h2
        | cons x xs => simpa using hf
    · left
      have hlen : acc.length = g.length := Nat.le_antisymm hat.le (Nat.le_of_not_lt hl)
      refine ⟨acc, ?_, hlen, ⟨s, hat⟩, hf⟩
      simp [Iter.body, buIter, hat.count, hlen]
  obtain ⟨es, a, hlen, ⟨st', hat⟩, hf⟩ := this
  refine ⟨es, a, ?_, hf, hat.past⟩
  rw [hat.order, hlen]

example : InRange exGraph ∧ 3 < exGraph.length ∧ BuVisits exGraph 3 (.ok [(3, 4), (4, 4), (5, 4), (0, 4), (1, 3), (2, 3)]) :=
  ⟨by decide +kernel, by decide, Iter.visits_of_runFuel (n := 9) (by rfl)⟩

/-- 0 → 2 → 1. -/
def exChain : Rows Unit := [[(2, ())], [], [(1, ())]]

/-- C77 fails: in a graph without edges vertex 1 is reported although it cannot be reached from vertex 0, and in the graph 0 → 2 → 1 vertex 1, two steps away, is reported
before vertex 2, one step away. -/
theorem bottomup_bfs_range_not_bfs :
    (∃ es, BuVisits ([[], []] : Rows Unit) 0 (.ok es) ∧ 1 ∈ es.map Prod.fst ∧ ¬ Reachable ([[], []] : Rows Unit) 0 1) ∧
    (∃ es, BuVisits exChain 0 (.ok es) ∧ es.map Prod.fst = [0, 1, 2] ∧ IsDist exChain 0 1 2 ∧ IsDist exChain 0 2 1) := by
  refine ⟨⟨[(0, 0), (1, 1)], Iter.visits_of_runFuel (n := 5) (by rfl), by decide, ?_⟩, ?_⟩
  · rintro ⟨k, h⟩
    cases h with
    | snoc h e =>
      have := (h.lt (by decide) (by decide) : _ < 2)
      exact (by decide : ∀ v < 2, ¬ Edge ([[], []] : Rows Unit) v 1) _ this e
  · refine ⟨[(0, 2), (1, 1), (2, 1)], Iter.visits_of_runFuel (n := 5) (by rfl), by decide, ?_, ?_⟩
    · refine ⟨.snoc (v := 2) (.snoc .nil (by decide)) (by decide), fun k h => ?_⟩
      cases h with
      | snoc h e => cases h with
        | nil => exact absurd e (by decide)
        | snoc h e => omega
    · refine ⟨.snoc .nil (by decide), fun k h => ?_⟩
      cases h with
      | snoc h e => omega

/-- C77 fails: the range cannot be built for an empty graph. -/
theorem bottomup_bfs_range_empty (seed : Nat) : BuVisits ([] : Rows α) seed (.error .outOfBounds) := by
  unfold BuVisits buInit
  simp [vset]

end NW.BfsEdges
