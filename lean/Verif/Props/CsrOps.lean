import Verif.Lemmas.CsrOps

/-!
# C11–C14: operations that change a compressed structure

`g.row u` is what a user sees when iterating over `g[u]`.
-/

namespace NW.Csr
variable {α : Type}
open Spec EdgeList

/-! ## C11 -/

/-- Which neighbours `triangularize<c>` must keep at vertex `u`. -/
def keepsNeighbour (c : Succession) (u v : Nat) : Bool :=
  match c with
  | .predecessor => decide (v < u)
  | .successor => decide (u < v)

/-- C11 (partial): on a structure whose `end()` is right, `triangularize` keeps exactly the neighbours on the
requested side, in order and with their attributes.
Missing for the full C11: structures built by `adjacency(el)`, where it reads out of bounds
(`triangularize_reads_past_end`). -/
theorem triangularize_partial (c : Succession) (g : Csr α) (hg : g.Wf) (hN : g.N = g.numVertices) :
    ∃ g', g.triangularize c = .ok g' ∧ g'.Wf ∧ g'.numVertices = g.numVertices ∧ g'.N = g.N ∧
      ∀ u r, g.row u = .ok r → g'.row u = .ok (r.filter fun x => keepsNeighbour c u x.1) := by
  obtain ⟨rows, h⟩ := hg.rows
  have hc : ∃ comp, g.triangularize c = triangularizeBy comp g ∧ ∀ u v, comp v u = keepsNeighbour c u v := by
    cases c
    · exact ⟨_, rfl, fun u v => rfl⟩
    · exact ⟨_, rfl, fun u v => rfl⟩
  obtain ⟨comp, e, hk⟩ := hc
  obtain ⟨g', e1, e2, e3⟩ := triangularizeBy_rows (comp := comp) h (by rw [hN, h.numVertices])
  refine ⟨g', by rw [e, e1], e3.wf, by rw [e3.numVertices, h.numVertices]; simp, e2, ?_⟩
  intro u r hr
  rcases Nat.lt_or_ge u rows.length with hu | hu
  · rw [h.row hu] at hr
    injection hr with hr
    rw [e3.row (by simpa using hu)]
    simp [← hr, hk]
  · rw [row_oob (by rw [h.numVertices]; exact hu)] at hr; cases hr

/-- C11 fails for every structure built by `adjacency(el)`: `triangularize` reads the offsets out of bounds. -/
theorem triangularize_reads_past_end [Inhabited α] (o : Oracles α) (ho : o.Ok) (directed : Bool) (el : EdgeList α)
    (hw : el.Wf) (hb : EndpointsBelow el.numVertices el.contents) (idx : Nat) (hidx : idx < 2) (c : Succession) :
    ∃ g, ofEdgeList o directed idx false el = .ok g ∧ g.triangularize c = .error .outOfBounds := by
  obtain ⟨g, h1, h2, h3, _, h4, _⟩ := fill_ok ho hw hb directed hidx (sized (el.numVertices + 1) 0)
  have hN : g.N = el.numVertices + 1 := h3
  refine ⟨g, h1, ?_⟩
  cases c <;> exact triangularizeBy_oob h2 (by omega)

example : let g : Csr Nat := ofVectors [0, 2, 4, 5] [1, 2, 0, 2, 1] [10, 11, 12, 13, 14]
    g.Wf ∧ g.N = g.numVertices ∧
      (g.triangularize .successor).bind (·.outer) = .ok [[(1, 10), (2, 11)], [(2, 13)], []] ∧
      (g.triangularize .predecessor).bind (·.outer) = .ok [[], [(0, 12)], [(1, 14)]] := by
  refine ⟨⟨by decide, rfl, by simp [ofVectors], rfl, rfl⟩, rfl, by decide, by decide⟩

/-! ## C12 -/

/-- What `sort_to_be_indexed` does to a row: the ids are sorted, the attribute columns stay where they were. -/
theorem sort_rows_characterised (srtIds : List Nat → List Nat) (hs : IsSort (fun a b : Nat => decide (a < b)) srtIds)
    (g : Csr α) (hg : g.Wf) :
    ∃ g', g.sortToBeIndexed srtIds = .ok g' ∧ g'.Wf ∧ g'.numVertices = g.numVertices ∧ g'.N = g.N ∧
      ∀ u r, g.row u = .ok r → ∃ r', g'.row u = .ok r' ∧
        (r'.map (·.1)).Perm (r.map (·.1)) ∧ (r'.map (·.1)).Pairwise (· ≤ ·) ∧ r'.map (·.2) = r.map (·.2) := by
  obtain ⟨rows, h⟩ := hg.rows
  obtain ⟨g', e1, e2, e3⟩ := sortToBeIndexed_rows hs h
  refine ⟨g', e1, e3.wf, by rw [e3.numVertices, h.numVertices]; simp, e2, ?_⟩
  intro u r hr
  rcases Nat.lt_or_ge u rows.length with hu | hu
  · rw [h.row hu] at hr
    injection hr with hr
    refine ⟨_, e3.row (by simpa using hu), ?_⟩
    have hl : (srtIds (r.map (·.1))).length = r.length := by simpa using (hs.perm (r.map (·.1))).length_eq
    simp only [List.getElem_map, hr]
    rw [List.map_fst_zip (by simp [hl]), List.map_snd_zip (by simp [hl])]
    exact ⟨hs.perm _, (hs.sorted _).imp (by simp), rfl⟩
  · rw [row_oob (by rw [h.numVertices]; exact hu)] at hr; cases hr

/-- C12 (partial): for structures without attributes (or where all attribute values coincide), every row is sorted by
target and is the same multiset.  Missing for the full C12: attributes, where it is false
(`sort_detaches_attributes`). -/
theorem sort_keeps_edges_partial [Subsingleton α] (srtIds : List Nat → List Nat)
    (hs : IsSort (fun a b : Nat => decide (a < b)) srtIds) (g : Csr α) (hg : g.Wf) :
    ∃ g', g.sortToBeIndexed srtIds = .ok g' ∧ g'.numVertices = g.numVertices ∧
      ∀ u r, g.row u = .ok r → ∃ r', g'.row u = .ok r' ∧ r'.Perm r ∧ r'.Pairwise (fun a b => a.1 ≤ b.1) := by
  obtain ⟨g', e1, _, e3, _, e5⟩ := sort_rows_characterised srtIds hs g hg
  refine ⟨g', e1, e3, ?_⟩
  intro u r hr
  obtain ⟨r', p1, p2, p3, p4⟩ := e5 u r hr
  refine ⟨r', p1, ?_, List.pairwise_map.1 p3⟩
  cases r with
  | nil => simp at p2; simp [p2]
  | cons x xs =>
    have hmk : ∀ l : List (Nat × α), (l.map (·.1)).map (fun v => (v, x.2)) = l := by
      intro l
      rw [List.map_map]
      conv => rhs; rw [← List.map_id l]
      apply List.map_congr_left
      intro y _
      exact Prod.ext rfl (Subsingleton.elim _ _)
    have := p2.map (fun v => (v, x.2))
    rwa [hmk, hmk] at this

theorem fill_sort [Inhabited α] (o : Oracles α) (directed : Bool) (idx : Nat) (el : EdgeList α) (cs : Csr α) :
    fill o directed idx true el cs = (fill o directed idx false el cs).bind (sortToBeIndexed o.srtIds) := by
  cases directed
  · simp only [fill, fillDir]
    cases fillUndirected o.srt idx el el.numVertices cs <;> rfl
  · simp only [fill, fillDir]
    cases fillDirected o.sched o.srt true idx el el.numVertices cs <;> rfl

/-- Building with `sort_adjacency = true`, any attribute type: the neighbour ids of every vertex are sorted and are the
right multiset. -/
theorem build_sorted_ids [Inhabited α] (o : Oracles α) (ho : o.Ok) (directed : Bool) (el : EdgeList α)
    (hw : el.Wf) (hb : EndpointsBelow el.numVertices el.contents) (idx : Nat) (hidx : idx < 2) :
    ∃ g, ofEdgeList o directed idx true el = .ok g ∧ g.Wf ∧ g.numVertices = el.numVertices ∧
      ∀ u, u < el.numVertices → ∃ r, g.row u = .ok r ∧ (r.map (·.1)).Pairwise (· ≤ ·) ∧
        (r.map (·.1)).Perm ((if directed then (if idx = 0 then outEdges el.contents u else inEdges el.contents u)
         else outEdges el.contents u ++ inEdges el.contents u).map (·.1)) := by
  obtain ⟨g, h1, h2, _, _, h4, _, h5⟩ := fill_ok ho hw hb directed hidx (sized (el.numVertices + 1) 0)
  obtain ⟨g', e1, e2, e3, _, e5⟩ := sort_rows_characterised o.srtIds ho.srtIds g h2
  refine ⟨g', ?_, e2, by omega, ?_⟩
  · show fill o directed idx true el _ = _
    rw [fill_sort, h1]; exact e1
  · intro u hu
    obtain ⟨r, p1, p2⟩ := h5 u hu
    obtain ⟨r', q1, q2, q3, _⟩ := e5 u r p1
    exact ⟨r', q1, q3, q2.trans (p2.map _)⟩

/-- Sorting with distinct keys has only one possible outcome. -/
theorem IsSort.eq_of {β : Type} {lt : β → β → Bool} {srt : List β → List β} (h : IsSort lt srt) {l t : List β}
    (hp : t.Perm l) (hs : t.Pairwise fun a b => lt b a = false)
    (ha : ∀ a ∈ l, ∀ b ∈ l, lt a b = false → lt b a = false → a = b) : srt l = t := by
  refine List.Perm.eq_of_pairwise (le := fun a b => lt b a = false) ?_ (h.sorted l) hs ((h.perm l).trans hp.symm)
  intro a b ha' hb' h1 h2
  exact ha a ((h.perm l).mem_iff.1 ha') b (hp.mem_iff.1 hb') h2 h1

/-- C12 fails with attributes: vertex 0 has the edge to 1 with attribute 10 and the edge to 0 with attribute 11; after
sorting, the edge to 0 has attribute 10 and the edge to 1 has attribute 11 — for every conforming sort. -/
theorem sort_detaches_attributes (srtIds : List Nat → List Nat)
    (hs : IsSort (fun a b : Nat => decide (a < b)) srtIds) :
    let g : Csr Nat := ofVectors [0, 2, 2] [1, 0] [10, 11]
    g.Wf ∧ g.row 0 = .ok [(1, 10), (0, 11)] ∧
      ∃ g', g.sortToBeIndexed srtIds = .ok g' ∧ g'.row 0 = .ok [(0, 10), (1, 11)] ∧
        ¬ [(0, 10), (1, 11)].Perm [(1, 10), (0, 11)] := by
  have hg : (ofVectors [0, 2, 2] [1, 0] [10, 11] : Csr Nat).Wf :=
    ⟨by decide, rfl, by simp [ofVectors], rfl, rfl⟩
  have h10 : srtIds [1, 0] = [0, 1] := by
    refine IsSort.eq_of hs (by decide) (by simp) ?_
    intro a _ b _ h1 h2; simp at h1 h2; omega
  have hnil : srtIds [] = [] := by simpa using hs.perm []
  refine ⟨hg, by decide, ?_⟩
  refine ⟨ofVectors [0, 2, 2] [0, 1] [10, 11], ?_, by decide, by decide⟩
  simp only [sortToBeIndexed, ofVectors]
  have : (List.range ([0, 2, 2].length - 1)) = [0, 1] := by decide
  rw [this]
  simp [List.foldlM_cons, sortRow, vget, h10, hnil]

example : (ofVectors [0, 3, 3, 4] [2, 1, 0, 2] [(), (), (), ()] : Csr Unit).Wf :=
  ⟨by decide, rfl, by simp [ofVectors], rfl, rfl⟩

end NW.Csr
