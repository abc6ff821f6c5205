import Verif.Props.CsrOps

/-!
# C13, C14: reordering by degree, streaming construction
-/

namespace NW.Csr
variable {α : Type}
open Spec EdgeList

/-! ## C13 -/

/-- The sort oracle conforms, whatever key it is used with. -/
def SortsByDegree (srt : (Nat → Nat → Bool) → List Nat → List Nat) : Prop :=
  ∀ (d : Direction) (key : Nat → Nat), IsSort (degLt d key) (srt (degLt d key))

/-- The degree of a vertex, 0 outside the graph. -/
def degreeOf (g : Csr α) (u : Nat) : Nat := (g.degrees[u]?).getD 0

/-- The order in which `permute_by_degree` lists the vertices. -/
def degreeOrder (srt : (Nat → Nat → Bool) → List Nat → List Nat) (d : Direction) (g : Csr α) : List Nat :=
  srt (degLt d g.degreeOf) (List.range g.numVertices)

theorem Rows.degrees {g : Csr α} {rows} (h : g.Rows rows) : g.degrees = rows.map List.length := by
  obtain ⟨_, h2, h3⟩ := csr_degrees g h.wf
  apply List.ext_getElem?
  intro u
  rcases Nat.lt_or_ge u rows.length with hu | hu
  · rw [h3 u _ (h.row hu)]; simp [hu]
  · rw [List.getElem?_eq_none (by rw [h2, h.numVertices]; exact hu), List.getElem?_eq_none (by simpa using hu)]

theorem permuteByDegree_involutive [Inhabited α] {srt : (Nat → Nat → Bool) → List Nat → List Nat}
    (hs : SortsByDegree srt) {d : Direction} (hd : d ≠ .other) {g : Csr α} {rows} (h : g.Rows rows)
    (hinv : ∀ (i x : Nat), (degreeOrder srt d g)[i]? = some x → (degreeOrder srt d g)[x]? = some i) :
    ∃ g', permuteByDegree srt d g = .ok (g', degreeOrder srt d g) ∧ g'.N = g.N ∧
      g'.Rows ((degreeOrder srt d g).map fun j => rows.getD j []) := by
  have hp : (degreeOrder srt d g).Perm (List.range rows.length) := by
    rw [← h.numVertices]; exact (hs d g.degreeOf).perm (List.range g.numVertices)
  have hdef : srt (degLt d fun a => (g.degrees[a]?).getD 0) (List.range (g.indices.length - 1)) =
      degreeOrder srt d g := rfl
  generalize hpd : degreeOrder srt d g = p at *
  have hpl : p.length = rows.length := by simpa using hp.length_eq
  have hplt : ∀ x ∈ p, x < rows.length := fun x hx => by simpa using hp.mem_iff.1 hx
  obtain ⟨q, hq, hql, hqk⟩ := invertPerm_ok hp
  have hqp : q = p := by
    apply List.ext_getElem?
    intro x
    rcases Nat.lt_or_ge x p.length with hx | hx
    · have h1 : p[x]? = some p[x] := List.getElem?_eq_getElem hx
      have h2 := hinv x _ h1
      have hlt : p[x] < p.length := by rw [hpl]; exact hplt _ (List.getElem_mem hx)
      have h3 := hqk p[x] hlt
      have h4 : p[p[x]] = x := by rw [List.getElem?_eq_getElem hlt] at h2; simpa using h2
      rw [h4] at h3
      rw [h3, h1]
    · rw [List.getElem?_eq_none (by omega), List.getElem?_eq_none (by omega)]
  subst hqp
  let cT := rows.map fun r => r.map (·.1)
  let cA := rows.map fun r => r.map (·.2)
  have hT : g.tgt = cT.flatten := by rw [h.tgt, List.map_flatten]
  have hA : g.attrs = cA.flatten := by rw [h.attrs, List.map_flatten]
  have hgT : ∀ j, cT.getD j [] = (rows.getD j []).map (·.1) := fun j => by
    rw [List.getD_eq_getElem?_getD, List.getD_eq_getElem?_getD, List.getElem?_map]
    cases rows[j]? <;> rfl
  have hgA : ∀ j, cA.getD j [] = (rows.getD j []).map (·.2) := fun j => by
    rw [List.getD_eq_getElem?_getD, List.getD_eq_getElem?_getD, List.getElem?_map]
    cases rows[j]? <;> rfl
  have hlT : cT.map List.length = rows.map List.length := by
    simp only [cT, List.map_map]; apply List.map_congr_left; intro r _; simp
  have hlA : cA.map List.length = rows.map List.length := by
    simp only [cA, List.map_map]; apply List.map_congr_left; intro r _; simp
  have hnew : q.mapM (fun p => vget g.degrees p) = .ok (q.map fun j => (rows.getD j []).length) := by
    apply mapM_ok_of_forall
    intro x hx
    rw [h.degrees, vget_eq_ok, List.getElem?_map, List.getD_eq_getElem?_getD,
      List.getElem?_eq_getElem (hplt x hx)]
    rfl
  have hsT : (0 :: inclusiveScan 0 (q.map fun j => (rows.getD j []).length)) =
      0 :: inclusiveScan 0 ((q.map fun j => cT.getD j []).map List.length) := by
    rw [List.map_map]; congr 2; apply List.map_congr_left; intro j _; simp only [Function.comp, hgT]; simp
  have hsA : (0 :: inclusiveScan 0 (q.map fun j => (rows.getD j []).length)) =
      0 :: inclusiveScan 0 ((q.map fun j => cA.getD j []).map List.length) := by
    rw [List.map_map]; congr 2; apply List.map_congr_left; intro j _; simp only [Function.comp, hgA]; simp
  have hpT := permuteCol_rows (cols := cT) (q := q) (indices := g.indices) (by simpa [cT] using hp)
    (by rw [hlT]; exact h.indices)
  have hpA := permuteCol_rows (cols := cA) (q := q) (indices := g.indices) (by simpa [cA] using hp)
    (by rw [hlA]; exact h.indices)
  rw [← hsT, ← hT] at hpT
  rw [← hsA, ← hA] at hpA
  refine ⟨⟨g.isOpen, g.N, 0 :: inclusiveScan 0 (q.map fun j => (rows.getD j []).length),
    (q.map fun j => cT.getD j []).flatten, (q.map fun j => cA.getD j []).flatten⟩, ?_, rfl, ?_, ?_, ?_⟩
  · unfold permuteByDegree
    simp only [(csr_degrees g h.wf).1, res_bind_ok, if_neg hd]
    rw [hdef, hnew]
    simp only [res_bind_ok]
    rw [hq, res_bind_ok, h.vget (Nat.zero_le _), res_bind_ok]
    have hz : inclusiveScan 0 (((rows.take 0).flatten).length :: q.map fun j => (rows.getD j []).length) =
        0 :: inclusiveScan 0 (q.map fun j => (rows.getD j []).length) := by
      simp [inclusiveScan]
    rw [hz, hpT, res_bind_ok, hpA, res_bind_ok]
    rfl
  · simp only [List.map_map, Function.comp_def]
  · show (q.map fun j => cT.getD j []).flatten = _
    rw [List.map_flatten, List.map_map]
    congr 1
    apply List.map_congr_left
    intro j _; exact hgT j
  · show (q.map fun j => cA.getD j []).flatten = _
    rw [List.map_flatten, List.map_map]
    congr 1
    apply List.map_congr_left
    intro j _; exact hgA j

/-- C13 (partial): if the order of the vertices by degree happens to be an involution, `sort_by_degree` is right: the new
ids are a permutation of the vertices; the neighbours of the new vertex are the renamed neighbours of the old
one, with multiplicity; and the vertices come in degree order.
Missing for the full C13: orders that are not involutions, where it is false (`sort_by_degree_out_of_bounds`,
`permute_by_degree_wrong_rows`), and attributes, which the final sort detaches (C12). -/
theorem sort_by_degree_partial [Inhabited α] (srt : (Nat → Nat → Bool) → List Nat → List Nat) (hs : SortsByDegree srt)
    (srtIds : List Nat → List Nat) (hi : IsSort (fun a b : Nat => decide (a < b)) srtIds)
    (d : Direction) (hd : d ≠ .other) (g : Csr α) (hg : g.Wf)
    (hinv : ∀ (i x : Nat), (degreeOrder srt d g)[i]? = some x → (degreeOrder srt d g)[x]? = some i)
    (hends : ∀ v ∈ g.tgt, v < g.numVertices) :
    ∃ (g' : Csr α) (newId : List Nat), sortByDegree srt srtIds d g = .ok g' ∧ g'.Wf ∧ g'.numVertices = g.numVertices ∧
      newId.Perm (List.range g.numVertices) ∧
      (∀ u r nu, g.row u = .ok r → newId[u]? = some nu → ∃ r', g'.row nu = .ok r' ∧
        (r'.map (·.1)).Perm (r.map fun x => newId.getD x.1 0) ∧ r'.length = r.length) ∧
      (∀ i j ri rj, i < j → g'.row i = .ok ri → g'.row j = .ok rj →
        (d = .descending → rj.length ≤ ri.length) ∧ (d = .ascending → ri.length ≤ rj.length)) := by
  obtain ⟨rows, h⟩ := hg.rows
  obtain ⟨g1, e1, e2, e3⟩ := permuteByDegree_involutive hs hd h hinv
  have hp : (degreeOrder srt d g).Perm (List.range g.numVertices) := (hs d g.degreeOf).perm _
  have hsorted := (hs d g.degreeOf).sorted (List.range g.numVertices)
  change (degreeOrder srt d g).Pairwise _ at hsorted
  generalize degreeOrder srt d g = p at *
  have hpl : p.length = rows.length := by rw [h.numVertices] at hp; simpa using hp.length_eq
  have hplt : ∀ x ∈ p, x < rows.length := fun x hx => by
    rw [h.numVertices] at hp; simpa using hp.mem_iff.1 hx
  have hR1 : ∀ i (hi : i < p.length), (p.map fun j => rows.getD j [])[i]'(by simpa using hi) =
      rows[p[i]]'(hplt _ (List.getElem_mem hi)) := by
    intro i hi
    have := hplt _ (List.getElem_mem hi)
    simp [List.getD_eq_getElem?_getD, List.getElem?_eq_getElem this]
  -- relabelling
  have hmem : ∀ v ∈ g1.tgt, v < p.length := by
    intro v hv
    rw [e3.tgt, List.mem_map] at hv
    obtain ⟨x, hx, rfl⟩ := hv
    rw [List.mem_flatten] at hx
    obtain ⟨l, hl, hx⟩ := hx
    rw [List.mem_map] at hl
    obtain ⟨j, hj, rfl⟩ := hl
    have hjl := hplt j hj
    rw [List.getD_eq_getElem?_getD, List.getElem?_eq_getElem hjl] at hx
    have : x.1 ∈ g.tgt := by
      rw [h.tgt]
      exact List.mem_map_of_mem (List.mem_flatten.2 ⟨_, List.getElem_mem hjl, hx⟩)
    have := hends _ this
    rw [h.numVertices] at this; omega
  have hrel : g1.tgt.mapM (fun v => vget p v) = .ok (g1.tgt.map fun v => p.getD v 0) := by
    apply mapM_ok_of_forall
    intro v hv
    have hv' := hmem v hv
    rw [vget_of_lt hv', List.getD_eq_getElem?_getD, List.getElem?_eq_getElem hv']; rfl
  let R := p.map fun j => rows.getD j []
  have hR : ({ g1 with tgt := g1.tgt.map fun v => p.getD v 0 } : Csr α).Rows
      (R.map fun r => r.map fun x => (p.getD x.1 0, x.2)) := by
    refine ⟨?_, ?_, ?_⟩
    · show g1.indices = _
      rw [e3.indices, List.map_map (l := R)]
      congr 2
      apply List.map_congr_left
      intro r _; simp
    · show g1.tgt.map _ = _
      rw [e3.tgt, ← List.map_flatten, List.map_map, List.map_map]; rfl
    · show g1.attrs = _
      rw [e3.attrs, ← List.map_flatten, List.map_map]; rfl
  obtain ⟨g2, f1, f2, f3⟩ := sortToBeIndexed_rows hi hR
  have hRl : R.length = p.length := by simp [R]
  have hrow2 : ∀ i (hi' : i < p.length), ∃ r', g2.row i = .ok r' ∧
      (r'.map (·.1)).Perm ((rows[p[i]]'(hplt _ (List.getElem_mem hi'))).map fun x => p.getD x.1 0) ∧
      r'.length = (rows[p[i]]'(hplt _ (List.getElem_mem hi'))).length := by
    intro i hi'
    have hl := (hi.perm (((rows[p[i]]'(hplt _ (List.getElem_mem hi'))).map fun x => (p.getD x.1 0, x.2)).map (·.1))).length_eq
    simp only [List.length_map] at hl
    refine ⟨_, f3.row (by simp; omega), ?_⟩
    simp only [List.getElem_map, R, hR1 i hi']
    constructor
    · rw [List.map_fst_zip (by rw [hl, List.length_map, List.length_map]; exact Nat.le_refl _)]
      refine (hi.perm _).trans ?_
      rw [List.map_map]; exact List.Perm.refl _
    · rw [List.length_zip, hl, List.length_map, List.length_map, Nat.min_self]
  refine ⟨g2, p, ?_, f3.wf, by rw [f3.numVertices, h.numVertices]; simp; omega, hp, ?_, ?_⟩
  · unfold sortByDegree
    rw [e1]
    simp only [res_bind_ok]
    unfold relabelToBeIndexed
    rw [hrel, res_bind_ok, f1]
  · intro u r nu hr hnu
    have hnu' := hinv u nu hnu
    have hlt : nu < p.length := by
      rcases Nat.lt_or_ge nu p.length with c | c
      · exact c
      · rw [List.getElem?_eq_none c] at hnu'; cases hnu'
    obtain ⟨r', a1, a2, a3⟩ := hrow2 nu hlt
    have hpu : p[nu] = u := by rw [List.getElem?_eq_getElem hlt] at hnu'; simpa using hnu'
    have hul : u < rows.length := by rw [← hpu]; exact hplt _ (List.getElem_mem hlt)
    rw [h.row hul] at hr
    injection hr with hr
    subst hr
    have hrr : rows[p[nu]]'(hplt _ (List.getElem_mem hlt)) = rows[u] := by simp [hpu]
    rw [hrr] at a2 a3
    exact ⟨r', a1, a2, a3⟩
  · intro i j ri rj hij hri hrj
    have hlt : ∀ x r, g2.row x = .ok r → x < p.length := by
      intro x r hx
      rcases Nat.lt_or_ge x p.length with c | c
      · exact c
      · rw [row_oob (by rw [f3.numVertices]; simpa [R] using c)] at hx; cases hx
    have hil := hlt i _ hri
    have hjl := hlt j _ hrj
    obtain ⟨r1, a1, _, a3⟩ := hrow2 i hil
    obtain ⟨r2, b1, _, b3⟩ := hrow2 j hjl
    rw [hri] at a1; cases a1
    rw [hrj] at b1; cases b1
    have hs2 := List.pairwise_iff_getElem.1 hsorted i j hil hjl hij
    have hdeg : ∀ x, x < rows.length → g.degreeOf x = (rows.getD x []).length := by
      intro x hx
      unfold degreeOf
      rw [h.degrees, List.getElem?_map, List.getD_eq_getElem?_getD, List.getElem?_eq_getElem hx]; rfl
    have hgd : ∀ x (hx : x < rows.length), rows.getD x [] = rows[x] := fun x hx => by
      rw [List.getD_eq_getElem?_getD, List.getElem?_eq_getElem hx]; rfl
    have d1 := hdeg p[i] (hplt _ (List.getElem_mem hil))
    have d2 := hdeg p[j] (hplt _ (List.getElem_mem hjl))
    rw [hgd _ (hplt _ (List.getElem_mem hil))] at d1
    rw [hgd _ (hplt _ (List.getElem_mem hjl))] at d2
    constructor
    · intro hdd; subst hdd
      simp [degLt] at hs2; omega
    · intro hdd; subst hdd
      simp [degLt] at hs2; omega

/-- A conforming sort exists. -/
theorem exists_sortsByDegree : ∃ srt, SortsByDegree srt := by
  refine ⟨fun lt l => l.mergeSort (fun a b => !lt b a), fun d key => ⟨fun l => List.mergeSort_perm l _, fun l => ?_⟩⟩
  have := List.pairwise_mergeSort (le := fun a b : Nat => !degLt d key b a)
    (fun a b c h1 h2 => by cases d <;> simp [degLt] at * <;> omega)
    (fun a b => by cases d <;> simp [degLt] <;> omega) l
  exact this.imp (fun h => by simpa using h)

/-- A graph with degrees 1, 2, 0 meets the hypotheses of `sort_by_degree_partial` (the order exchanges 0 and 1). -/
example (srt : (Nat → Nat → Bool) → List Nat → List Nat) (hs : SortsByDegree srt) :
    let g : Csr Nat := ofVectors [0, 1, 3, 3] [2, 0, 2] [10, 11, 12]
    g.Wf ∧ (∀ v ∈ g.tgt, v < g.numVertices) ∧ degreeOrder srt .descending g = [1, 0, 2] ∧
      ∀ (i x : Nat), (degreeOrder srt .descending g)[i]? = some x → (degreeOrder srt .descending g)[x]? = some i := by
  intro g
  have ho : degreeOrder srt .descending g = [1, 0, 2] := by
    refine IsSort.eq_of (hs .descending g.degreeOf) (by decide) (by decide) ?_
    have hr : List.range g.numVertices = [0, 1, 2] := by decide
    rw [hr]
    decide
  refine ⟨⟨by decide, rfl, by simp [g, ofVectors], rfl, rfl⟩, by decide, ho, ?_⟩
  rw [ho]
  intro i x h
  rcases i with _ | _ | _ | i <;> simp at h
  all_goals (subst h; rfl)

/-- C13 fails: with degrees 0, 2, 1 (the order 1, 2, 0 is not an involution) `sort_by_degree` writes outside the
edge array, for every conforming sort. -/
theorem sort_by_degree_out_of_bounds (srt : (Nat → Nat → Bool) → List Nat → List Nat) (hs : SortsByDegree srt)
    (srtIds : List Nat → List Nat) :
    let g : Csr Nat := ofVectors [0, 0, 2, 3] [0, 2, 1] [10, 11, 12]
    g.Wf ∧ (∀ v ∈ g.tgt, v < g.numVertices) ∧ sortByDegree srt srtIds .descending g = .error .outOfBounds := by
  intro g
  refine ⟨⟨by decide, rfl, by simp [g, ofVectors], rfl, rfl⟩, by decide, ?_⟩
  have hd : g.degreesPar = .ok [0, 2, 1] := by decide
  have ho : srt (degLt .descending fun a => (([0, 2, 1] : List Nat)[a]?).getD 0) (List.range (g.indices.length - 1)) =
      [1, 2, 0] := by
    refine IsSort.eq_of (hs .descending _) (by decide) (by decide) ?_
    have hr : List.range (g.indices.length - 1) = [0, 1, 2] := by decide
    rw [hr]
    decide
  unfold sortByDegree permuteByDegree
  simp only [hd, res_bind_ok]
  rw [if_neg (by decide), ho]
  have hm : List.mapM (fun p => vget [0, 2, 1] p) [1, 2, 0] = .ok [2, 1, 0] := by decide
  have hi : invertPerm [1, 2, 0] = .ok [2, 0, 1] := by decide
  have h0 : vget g.indices 0 = .ok 0 := by decide
  have hp : permuteCol g.indices (inclusiveScan 0 (0 :: [2, 1, 0])) [2, 0, 1] g.tgt = .error .outOfBounds := by decide
  rw [hm, res_bind_ok, hi, res_bind_ok, h0, res_bind_ok]
  rw [hp]
  rfl

/-- C13 fails without a fault too: four vertices with 3, 5, 4 and 2 self loops and no other edges.  `permute_by_degree`
returns that vertex 1 became vertex 0, but the new vertex 0 has four edges to the old vertex 2 and one to vertex 0,
for every conforming sort. -/
theorem permute_by_degree_wrong_rows (srt : (Nat → Nat → Bool) → List Nat → List Nat) (hs : SortsByDegree srt) :
    let g : Csr Unit := ofVectors [0, 3, 8, 12, 14] [0, 0, 0, 1, 1, 1, 1, 1, 2, 2, 2, 2, 3, 3] (List.replicate 14 ())
    g.Wf ∧ g.row 1 = .ok (List.replicate 5 (1, ())) ∧
      ∃ g' newId, permuteByDegree srt .descending g = .ok (g', newId) ∧ newId[1]? = some 0 ∧
        g'.row 0 = .ok [(2, ()), (2, ()), (2, ()), (2, ()), (0, ())] := by
  intro g
  refine ⟨⟨by decide, rfl, by simp [g, ofVectors], rfl, rfl⟩, by decide, ?_⟩
  have hd : g.degreesPar = .ok [3, 5, 4, 2] := by decide
  have ho : srt (degLt .descending fun a => (([3, 5, 4, 2] : List Nat)[a]?).getD 0) (List.range (g.indices.length - 1)) =
      [1, 2, 0, 3] := by
    refine IsSort.eq_of (hs .descending _) (by decide) (by decide) ?_
    have hr : List.range (g.indices.length - 1) = [0, 1, 2, 3] := by decide
    rw [hr]
    decide
  refine ⟨⟨false, 4, [0, 5, 9, 12, 14], [2, 2, 2, 2, 0, 0, 0, 0, 0, 1, 1, 1, 3, 3], List.replicate 14 ()⟩,
    [2, 0, 1, 3], ?_, rfl, by decide⟩
  unfold permuteByDegree
  simp only [hd, res_bind_ok]
  rw [if_neg (by decide), ho]
  decide

/-- An unknown direction leaves an empty renumbering, which `sort_by_degree` then reads out of bounds. -/
theorem sort_by_degree_unknown_direction [Inhabited α] (srt : (Nat → Nat → Bool) → List Nat → List Nat)
    (srtIds : List Nat → List Nat) (g : Csr α) (hg : g.Wf) (he : g.tgt ≠ []) :
    sortByDegree srt srtIds .other g = .error .outOfBounds := by
  have hd := (csr_degrees g hg).1
  unfold sortByDegree permuteByDegree
  simp only [hd, res_bind_ok, if_true]
  cases ht : g.tgt with
  | nil => exact absurd ht he
  | cons v vs =>
    simp [relabelToBeIndexed, ht, List.mapM_cons, vget]

/-! ## C14 -/

/-- Number of vertices a push history makes room for. -/
def maxSource (n : Nat) (es : List (Nat × Nat × α)) : Nat := es.foldl (fun m x => max m x.1) n

theorem maxSource_append (n : Nat) (es : List (Nat × Nat × α)) (x : Nat × Nat × α) :
    maxSource n (es ++ [x]) = max (maxSource n es) x.1 := by simp [maxSource]

theorem le_maxSource (n : Nat) (es : List (Nat × Nat × α)) : n ≤ maxSource n es := by
  unfold maxSource
  induction es generalizing n with
  | nil => exact Nat.le_refl _
  | cons x xs ih => have := ih (max n x.1); simp only [List.foldl_cons]; omega

theorem mem_le_maxSource (n : Nat) (es : List (Nat × Nat × α)) : ∀ x ∈ es, x.1 ≤ maxSource n es := by
  unfold maxSource
  induction es generalizing n with
  | nil => simp
  | cons y ys ih =>
    intro x hx
    rcases List.mem_cons.1 hx with rfl | hx
    · have := le_maxSource (max n x.1) ys
      unfold maxSource at this
      simp only [List.foldl_cons]; omega
    · exact ih _ x hx

theorem maxSource_mem_or (n : Nat) (es : List (Nat × Nat × α)) :
    maxSource n es = n ∨ ∃ x ∈ es, x.1 = maxSource n es := by
  unfold maxSource
  induction es generalizing n with
  | nil => exact Or.inl rfl
  | cons y ys ih =>
    simp only [List.foldl_cons]
    rcases ih (max n y.1) with h | ⟨x, hx, h⟩
    · rcases Nat.le_total n y.1 with c | c
      · right; exact ⟨y, by simp, by rw [h]; omega⟩
      · left; rw [h]; omega
    · right; exact ⟨x, by simp [hx], h⟩

theorem maxSource_eq (n : Nat) (es : List (Nat × Nat × α)) (h : ∀ x ∈ es, x.1 < n) : maxSource n es = n := by
  rcases maxSource_mem_or n es with c | ⟨x, hx, e⟩
  · exact c
  · have := h x hx; have := le_maxSource n es; omega

/-- The state after any sequence of pushes. -/
theorem pushes_ok [Inhabited α] (n : Nat) (es : List (Nat × Nat × α)) :
    es.foldlM (fun g x => g.pushBack x.1 x.2.1 x.2.2) ({ (sized n 0 : Csr α) with isOpen := true }) =
      .ok ⟨true, maxSource n es, (List.range (maxSource n es + 1)).map fun u => (es.map (·.1)).count u,
        es.map (·.2.1), es.map (·.2.2)⟩ := by
  obtain ⟨s, h1, h2⟩ := foldlM_list_inv (l := es) (f := fun g x => g.pushBack x.1 x.2.1 x.2.2)
    (s := { (sized n 0 : Csr α) with isOpen := true })
    (P := fun pre g => g = ⟨true, maxSource n pre, (List.range (maxSource n pre + 1)).map fun u => (pre.map (·.1)).count u,
        pre.map (·.2.1), pre.map (·.2.2)⟩)
    (by simp [sized, maxSource, List.map_const']) (by
      intro pre x post _ g hg
      subst hg
      refine ⟨_, ?_, rfl⟩
      obtain ⟨i, v, a⟩ := x
      have hlen : ((List.range (maxSource n pre + 1)).map fun u => (pre.map (·.1)).count u).length =
          maxSource n pre + 1 := by simp
      have hgrow : ((List.range (maxSource n pre + 1)).map fun u => (pre.map (·.1)).count u) ++
          List.replicate (i + 1 - (maxSource n pre + 1)) 0 =
          (List.range (max (maxSource n pre) i + 1)).map fun u => (pre.map (·.1)).count u := by
        apply List.ext_getElem?
        intro u
        rcases Nat.lt_or_ge u (maxSource n pre + 1) with c | c
        · rw [List.getElem?_append_left (by simpa using c)]
          simp only [List.getElem?_map]
          rw [List.getElem?_eq_getElem (by simpa using c), List.getElem?_eq_getElem (by simp; omega)]
          simp
        · rw [List.getElem?_append_right (by simpa using c)]
          have hz : (pre.map (·.1)).count u = 0 := by
            rw [List.count_eq_zero]
            intro hm
            obtain ⟨y, hy, rfl⟩ := List.mem_map.1 hm
            have := mem_le_maxSource n pre y hy; omega
          rcases Nat.lt_or_ge u (max (maxSource n pre) i + 1) with c2 | c2
          · rw [List.getElem?_map, List.getElem?_eq_getElem (l := List.range _) (by simp; omega),
              List.getElem?_eq_getElem (by simp; omega)]
            simp [hz]
          · rw [List.getElem?_eq_none (by simp; omega), List.getElem?_eq_none (by simp; omega)]
      have hN : maxSource n pre + (i + 1 - (maxSource n pre + 1)) = max (maxSource n pre) i := by omega
      unfold pushBack
      simp only [hlen, hgrow, hN]
      rw [vincr_of_lt (by simp; omega), res_bind_ok, maxSource_append]
      simp only [List.map_append, List.map_cons, List.map_nil]
      show Except.ok _ = Except.ok _
      congr 2
      apply List.ext_getElem
      · simp
      · intro u h1 h2
        simp only [List.length_set, List.length_map, List.length_range] at h1
        rw [List.getElem_set]
        by_cases c : i = u
        · subst c; simp
        · simp [c, List.count_append, List.count_singleton])
  rw [h1, h2]

theorem exclusiveScan_append_singleton (acc : Nat) (l : List Nat) (x : Nat) :
    exclusiveScan acc (l ++ [x]) = acc :: inclusiveScan acc l := by
  induction l generalizing acc with
  | nil => rfl
  | cons y ys ih => simp [exclusiveScan, inclusiveScan, ih]

theorem close_offsets (n : Nat) (f : Nat → Nat) :
    exclusiveScan 0 (vresize ((List.range (n + 1)).map f) (n + 1) 0) = 0 :: inclusiveScan 0 ((List.range n).map f) := by
  have : vresize ((List.range (n + 1)).map f) (n + 1) 0 = (List.range n).map f ++ [f n] := by
    unfold vresize
    rw [List.take_of_length_le (by simp)]
    simp [List.range_succ]
  rw [this, exclusiveScan_append_singleton]

/-- C14 (partial): if the pushed sources are vertices and never decrease, then after closing, vertex `u` has exactly the
entries pushed for `u`, in push order, and the structure is closed (unless nothing was pushed).
Missing for the full C14: sources in other orders (`push_back_out_of_order_wrong`), sources that are not vertices
(`push_back_new_vertex_fails`), both false of the code. -/
theorem push_back_fill_partial [Inhabited α] (n : Nat) (es : List (Nat × Nat × α))
    (hsorted : es.Pairwise fun a b => a.1 ≤ b.1) (hlt : ∀ x ∈ es, x.1 < n) :
    ∃ g, (sized n 0 : Csr α).pushBackFill es = .ok g ∧ g.Wf ∧ g.numVertices = n ∧ g.N = n ∧
      (∀ u, u < n → g.row u = .ok (outEdges es u)) ∧ (es ≠ [] → g.isOpen = false) := by
  have hp := pushes_ok n es
  rw [maxSource_eq n es hlt] at hp
  have hopen : (sized n 0 : Csr α).openForPushBack = .ok { (sized n 0 : Csr α) with isOpen := true } := rfl
  unfold pushBackFill
  rw [hopen, res_bind_ok, hp, res_bind_ok]
  by_cases hes : es = []
  · subst hes
    refine ⟨_, rfl, ?_⟩
    have hR : Rows (α := α) ⟨true, n, (List.range (n + 1)).map fun u => (([] : List (Nat × Nat × α)).map (·.1)).count u, [], []⟩
        (List.replicate n []) := by
      refine ⟨?_, by simp, by simp⟩
      simp only [List.map_replicate, List.length_nil, List.map_nil, List.count_nil, List.map_const', List.length_range]
      have : ∀ k, inclusiveScan 0 (List.replicate k 0) = List.replicate k 0 := by
        intro k; induction k with
        | zero => rfl
        | succ k ih => simp [List.replicate_succ, inclusiveScan, ih]
      rw [this, List.replicate_succ]
    refine ⟨hR.wf, by simp [numVertices], rfl, ?_, by simp⟩
    intro u hu
    have := hR.row (u := u) (by simpa using hu)
    simpa [outEdges] using this
  · have hpos : es.map (·.2.1) ≠ [] := by simpa using hes
    obtain ⟨w1, w2, w3⟩ := counting_sort (z := es) (n := n)
      (g := ⟨false, n, 0 :: inclusiveScan 0 ((List.range n).map fun v => (es.map (·.1)).count v),
        es.map (·.2.1), es.map (·.2.2)⟩) hsorted hlt rfl rfl rfl
    refine ⟨_, ?_, w1, w2, rfl, fun u hu => w3 u hu, fun _ => rfl⟩
    unfold closeForPushBack
    rw [if_neg (by simpa using hes)]
    simp only [close_offsets]
    have := w1.last
    simp only at this
    rw [this, decide_eq_true rfl]
    rfl

/-- C14 fails for a source that is not yet a vertex: pushing any edge whose source is `≥ n` makes closing fail its
assertion, whatever else is pushed. -/
theorem push_back_new_vertex_fails [Inhabited α] (n : Nat) (es : List (Nat × Nat × α)) (h : ∃ x ∈ es, n ≤ x.1) :
    (sized n 0 : Csr α).pushBackFill es = .error .assertFailed := by
  have hp := pushes_ok n es
  have hopen : (sized n 0 : Csr α).openForPushBack = .ok { (sized n 0 : Csr α) with isOpen := true } := rfl
  unfold pushBackFill
  rw [hopen, res_bind_ok, hp, res_bind_ok]
  obtain ⟨x, hx, hnx⟩ := h
  have hne : es ≠ [] := by intro h; subst h; simp at hx
  -- the largest source itself was pushed
  have hmax : ∃ y ∈ es, y.1 = maxSource n es := by
    rcases maxSource_mem_or n es with c | c
    · exact ⟨x, hx, by have := mem_le_maxSource n es x hx; omega⟩
    · exact c
  generalize maxSource n es = M at *
  unfold closeForPushBack
  rw [if_neg (by simpa using hne)]
  simp only [close_offsets]
  have hoff := offsets_getElem? (fun x : Nat × Nat × α => x.1) es M M (Nat.le_refl _)
  rw [List.getLast?_eq_getElem?]
  have hl : (0 :: inclusiveScan 0 ((List.range M).map fun u => (es.map (·.1)).count u)).length - 1 = M := by
    simp [inclusiveScan_length]
  rw [hl, hoff]
  have hlt : below (fun x : Nat × Nat × α => x.1) es M < es.length := by
    have h1 := below_succ (fun x : Nat × Nat × α => x.1) es M
    have h2 := below_le (fun x : Nat × Nat × α => x.1) es (M + 1)
    have h3 : 0 < (es.map (·.1)).count M := by
      rw [List.count_pos_iff]
      obtain ⟨y, hy, e⟩ := hmax
      exact List.mem_map.2 ⟨y, hy, e⟩
    omega
  have : decide (some (below (fun x : Nat × Nat × α => x.1) es M) = some (es.map (·.2.1)).length) = false := by
    simp; omega
  rw [this]
  rfl

/-- C14 fails when the sources do not come in order: after pushing the edges 1→5 and 0→7, vertex 0 has neighbour 5. -/
theorem push_back_out_of_order_wrong :
    ∃ g : Csr Unit, (sized 2 0 : Csr Unit).pushBackFill [(1, 5, ()), (0, 7, ())] = .ok g ∧
      g.row 0 = .ok [(5, ())] ∧ outEdges [(1, 5, ()), (0, 7, ())] 0 = [(7, ())] := by
  refine ⟨⟨false, 2, [0, 1, 2], [5, 7], [(), ()]⟩, by decide, by decide, by decide⟩

/-- After pushing nothing, closing leaves the structure open. -/
theorem push_back_nothing_stays_open [Inhabited α] (n : Nat) :
    ∃ g, (sized n 0 : Csr α).pushBackFill [] = .ok g ∧ g.isOpen = true :=
  ⟨{ (sized n 0 : Csr α) with isOpen := true }, rfl, rfl⟩

example : let es : List (Nat × Nat × Nat) := [(0, 4, 10), (0, 1, 11), (2, 0, 12)]
    (es.Pairwise fun a b => a.1 ≤ b.1) ∧ (∀ x ∈ es, x.1 < 4) := by decide

end NW.Csr
