import Verif.Lemmas.CsrBuild

/-!
# C06–C10: building a compressed adjacency and reading it

`el.contents` is the list of edges of an edge list (C01 relates it to the pushed edges).  Endpoints are below
`num_vertices` by C02.  The oracles `o` stand for any schedule of the atomic increments and any
conforming `std::sort`.
-/

namespace NW.Csr
variable {α : Type}
open Spec EdgeList

/-! ## C06 -/

/-- C06. Building a compressed adjacency from a directed edge list: there are exactly `num_vertices`
vertices and `size` edges; the neighbours of each vertex `u`, with their attributes, are exactly the edges leaving `u`
(`idx = 0`) or entering `u` (`idx = 1`), with multiplicity; no other vertex can be read.
For every schedule and every conforming sort. -/
theorem csr_directed_build [Inhabited α] (o : Oracles α) (ho : o.Ok) (el : EdgeList α) (hw : el.Wf)
    (hb : EndpointsBelow el.numVertices el.contents) (idx : Nat) (hidx : idx < 2) :
    ∃ g, ofEdgeList o true idx false el = .ok g ∧ g.Wf ∧ g.numVertices = el.numVertices ∧ g.numEdges = el.size ∧
      (∀ u, u < el.numVertices → ∃ r, g.row u = .ok r ∧
        r.Perm (if idx = 0 then outEdges el.contents u else inEdges el.contents u)) ∧
      (∀ u, el.numVertices ≤ u → g.row u = .error .outOfBounds) := by
  obtain ⟨g, h1, h2, _, _, h3, h4, h5⟩ := fill_ok ho hw hb true hidx (sized (el.numVertices + 1) 0)
  exact ⟨g, h1, h2, h3, by simpa using h4, by simpa using h5, fun u hu => row_oob (by omega)⟩

/-- C06, from the push history: build the edge list by any history of calls, then the adjacency. -/
theorem csr_directed_build_history [Inhabited α] (o : Oracles α) (ho : o.Ok) (w n : Nat) (ops : List (Op α))
    (el : EdgeList α) (hn : n < 2 ^ w) (hfit : ∀ x ∈ pushed ops, x.1 + 1 < 2 ^ w ∧ x.2.1 + 1 < 2 ^ w)
    (hrun : run w (new n) ops = .ok el) (idx : Nat) (hidx : idx < 2) :
    ∃ g, ofEdgeList o true idx false el = .ok g ∧ g.numVertices = impliedSize n (pushed ops) ∧
      ∀ u, u < impliedSize n (pushed ops) → ∃ r, g.row u = .ok r ∧
        r.Perm (if idx = 0 then outEdges (pushed ops) u else inEdges (pushed ops) u) := by
  have hfit' : IdsFit w ops := fun x hx => by have := hfit x hx; omega
  obtain ⟨hw, hc⟩ := run_ok (el := (new n : EdgeList α)) ⟨rfl, rfl⟩ hrun
  rw [map_mod_of_fit hfit'] at hc
  have hc' : el.contents = pushed ops := by rw [hc]; rfl
  obtain ⟨hcard, _⟩ := edgelist_num_vertices_partial w n ops el hn hfit hrun
  have hb : EndpointsBelow el.numVertices el.contents := by
    rw [hcard, hc']; exact impliedSize_gt n (pushed ops)
  obtain ⟨g, h1, _, h3, _, h5, _⟩ := csr_directed_build o ho el hw hb idx hidx
  rw [hcard] at h3
  rw [hcard, hc'] at h5
  exact ⟨g, h1, h3, h5⟩

/-- A stable merge sort and the identity schedule are oracles; so the hypotheses are satisfiable. -/
theorem exists_oracles : ∃ o : Oracles α, o.Ok := by
  refine ⟨⟨id, fun l => l.mergeSort (fun a b => decide (a.1 ≤ b.1)), fun l => l.mergeSort (fun a b => decide (a ≤ b))⟩,
    ⟨fun l => List.Perm.refl _, ⟨fun l => List.mergeSort_perm l _, fun l => ?_⟩,
      ⟨fun l => List.mergeSort_perm l _, fun l => ?_⟩⟩⟩
  · have := List.pairwise_mergeSort (le := fun a b : Nat × Nat × α => decide (a.1 ≤ b.1))
      (fun a b c h1 h2 => by simp at *; omega) (fun a b => by simp; omega) l
    exact this.imp (fun h => by simp [keyLt] at *; exact h)
  · have := List.pairwise_mergeSort (le := fun a b : Nat => decide (a ≤ b))
      (fun a b c h1 h2 => by simp at *; omega) (fun a b => by simp; omega) l
    exact this.imp (fun h => by simp at *; exact h)

/-- A concrete edge list meeting the hypotheses of `csr_directed_build`. -/
example : let el : EdgeList Nat := ⟨4, false, [2, 0, 2, 3], [1, 3, 0, 3], [10, 11, 12, 13]⟩
    el.Wf ∧ EndpointsBelow el.numVertices el.contents ∧ ∃ o : Oracles Nat, o.Ok := by
  refine ⟨⟨rfl, rfl⟩, ?_, exists_oracles⟩
  simp [EndpointsBelow, contents, EdgeList.numVertices]

/-! ## C07 -/

/-- C07. Building from an undirected edge list: the neighbours of `u` are the targets of the edges leaving `u` and
the sources of the edges entering `u` (a self loop counts twice), with attributes and multiplicity. -/
theorem csr_undirected_build [Inhabited α] (o : Oracles α) (ho : o.Ok) (el : EdgeList α) (hw : el.Wf)
    (hb : EndpointsBelow el.numVertices el.contents) (idx : Nat) (hidx : idx < 2) :
    ∃ g, ofEdgeList o false idx false el = .ok g ∧ g.Wf ∧ g.numVertices = el.numVertices ∧
      g.numEdges = 2 * el.size ∧
      (∀ u, u < el.numVertices → ∃ r, g.row u = .ok r ∧
        r.Perm (outEdges el.contents u ++ inEdges el.contents u)) ∧
      (∀ u, el.numVertices ≤ u → g.row u = .error .outOfBounds) := by
  obtain ⟨g, h1, h2, _, _, h3, h4, h5⟩ := fill_ok ho hw hb false hidx (sized (el.numVertices + 1) 0)
  exact ⟨g, h1, h2, h3, by simpa using h4, by simpa using h5, fun u hu => row_oob (by omega)⟩

/-- Symmetry, a consequence: in a graph built from an undirected edge list, `v` is a neighbour of `u` with attribute
`a` exactly as often as `u` is a neighbour of `v` with attribute `a`. -/
theorem csr_undirected_symmetric [DecidableEq α] [Inhabited α] (o : Oracles α) (ho : o.Ok) (el : EdgeList α)
    (hw : el.Wf) (hb : EndpointsBelow el.numVertices el.contents) (idx : Nat) (hidx : idx < 2) :
    ∃ g, ofEdgeList o false idx false el = .ok g ∧
      ∀ u v a ru rv, g.row u = .ok ru → g.row v = .ok rv → ru.count (v, a) = rv.count (u, a) := by
  obtain ⟨g, h1, _, h3, _, h5, h6⟩ := csr_undirected_build o ho el hw hb idx hidx
  refine ⟨g, h1, ?_⟩
  intro u v a ru rv hu hv
  have hlt : ∀ x r, g.row x = .ok r → x < el.numVertices := by
    intro x r hr
    rcases Nat.lt_or_ge x el.numVertices with h | h
    · exact h
    · rw [h6 x h] at hr; cases hr
  obtain ⟨ru', e1, p1⟩ := h5 u (hlt u ru hu)
  obtain ⟨rv', e2, p2⟩ := h5 v (hlt v rv hv)
  rw [hu] at e1; cases e1
  rw [hv] at e2; cases e2
  rw [p1.count_eq, p2.count_eq]
  have key : ∀ (es : List (Nat × Nat × α)) (x y : Nat),
      (outEdges es x).count (y, a) = (inEdges es y).count (x, a) := by
    intro es x y
    induction es with
    | nil => rfl
    | cons e es ih =>
      simp only [outEdges, inEdges, List.filter_cons] at ih ⊢
      by_cases c1 : e.1 = x <;> by_cases c2 : e.2.1 = y <;> simp [c1, c2, List.count_cons, ih]
  rw [List.count_append, List.count_append, key _ u v, key _ v u, Nat.add_comm]

/-! ## C08 -/

/-- What iterating over all rows does: it is defined exactly when `end()` is not beyond the last row. -/
theorem csr_outer_iff (g : Csr α) (hg : g.Wf) :
    (g.N ≤ g.numVertices → ∃ rows, g.outer = .ok rows ∧ rows.length = g.N ∧
      ∀ u (hu : u < rows.length), g.row u = .ok rows[u]) ∧
    (g.numVertices < g.N → g.outer = .error .outOfBounds) := by
  constructor
  · intro hN
    have hrow : ∀ u ∈ List.range g.N, ∃ r, g.row u = .ok r := by
      intro u hu
      exact ⟨_, hg.row (by simp at hu; omega)⟩
    have : ∃ rows, g.outer = .ok rows := by
      unfold outer
      generalize List.range g.N = l at hrow
      induction l with
      | nil => exact ⟨[], rfl⟩
      | cons x xs ih =>
        obtain ⟨r, hr⟩ := hrow x (by simp)
        obtain ⟨rs, hrs⟩ := ih (fun u hu => hrow u (by simp [hu]))
        exact ⟨r :: rs, by simp [List.mapM_cons, hr, hrs]⟩
    obtain ⟨rows, hr⟩ := this
    have hl := mapM_ok_length hr
    refine ⟨rows, hr, by simpa using hl, ?_⟩
    intro u hu
    have := mapM_ok_getElem hr u (by omega)
    simpa using this
  · intro hN
    unfold outer
    have hex : ∃ u ∈ List.range g.N, g.row u = .error .outOfBounds :=
      ⟨g.numVertices, by simp [hN], row_oob (Nat.le_refl _)⟩
    have hall : ∀ u ∈ List.range g.N, (∃ r, g.row u = .ok r) ∨ g.row u = .error .outOfBounds := by
      intro u _
      rcases Nat.lt_or_ge u g.numVertices with h | h
      · exact Or.inl ⟨_, hg.row h⟩
      · exact Or.inr (row_oob h)
    generalize List.range g.N = l at hex hall
    induction l with
    | nil => simp at hex
    | cons x xs ih =>
      rcases hall x (by simp) with ⟨r, hr⟩ | hr
      · rw [List.mapM_cons, hr, res_bind_ok, ih]
        · rfl
        · obtain ⟨u, hu, he⟩ := hex
          rcases List.mem_cons.1 hu with rfl | hu
          · rw [he] at hr; cases hr
          · exact ⟨u, hu, he⟩
        · exact fun u hu => hall u (by simp [hu])
      · rw [List.mapM_cons, hr]; rfl

/-- C08 fails for every adjacency built from an edge list by `adjacency(el)`: `end()` is one row too far, so iterating
over all rows always reads the offsets out of bounds. -/
theorem csr_outer_reads_past_end [Inhabited α] (o : Oracles α) (ho : o.Ok) (directed : Bool) (el : EdgeList α)
    (hw : el.Wf) (hb : EndpointsBelow el.numVertices el.contents) (idx : Nat) (hidx : idx < 2) :
    ∃ g, ofEdgeList o directed idx false el = .ok g ∧ g.outer = .error .outOfBounds := by
  obtain ⟨g, h1, h2, h3, _, h4, _⟩ := fill_ok ho hw hb directed hidx (sized (el.numVertices + 1) 0)
  have hN : g.N = el.numVertices + 1 := h3
  exact ⟨g, h1, (csr_outer_iff g h2).2 (by omega)⟩

/-- C08 (partial): iteration is right when the size given to `adjacency(N, el)` is the edge list's number of
vertices, or when the adjacency is made from offset and target vectors (`csr_outer_ofVectors`).
Missing for the full C08: `adjacency(el)`, where it is false (`csr_outer_reads_past_end`). -/
theorem csr_outer_in_bounds_partial [Inhabited α] (o : Oracles α) (ho : o.Ok) (directed : Bool) (el : EdgeList α)
    (hw : el.Wf) (hb : EndpointsBelow el.numVertices el.contents) (idx : Nat) (hidx : idx < 2) :
    ∃ g rows, ofEdgeListN o directed idx false el.numVertices el = .ok g ∧ g.outer = .ok rows ∧
      rows.length = el.numVertices ∧
      ∀ u (hu : u < rows.length), rows[u].Perm
        (if directed then (if idx = 0 then outEdges el.contents u else inEdges el.contents u)
         else outEdges el.contents u ++ inEdges el.contents u) := by
  obtain ⟨g, h1, h2, h3, _, h4, _, h5⟩ := fill_ok ho hw hb directed hidx (sized el.numVertices 0)
  have hN : g.N = el.numVertices := h3
  obtain ⟨rows, r1, r2, r3⟩ := (csr_outer_iff g h2).1 (by omega)
  refine ⟨g, rows, h1, r1, by omega, ?_⟩
  intro u hu
  obtain ⟨r, e1, e2⟩ := h5 u (by omega)
  rw [r3 u hu] at e1
  injection e1 with e1
  rw [e1]; exact e2

theorem csr_outer_ofVectors (indices tgt : List Nat) (attrs : List α) (hg : (ofVectors indices tgt attrs).Wf) :
    ∃ rows, (ofVectors indices tgt attrs).outer = .ok rows ∧ rows.length = indices.length - 1 ∧
      ∀ u (hu : u < rows.length), (ofVectors indices tgt attrs).row u = .ok rows[u] :=
  (csr_outer_iff _ hg).1 (Nat.le_refl _)

example : (ofVectors [0, 2, 2, 3] [1, 2, 0] [(), (), ()] : Csr Unit).Wf ∧
    (ofVectors [0, 2, 2, 3] [1, 2, 0] [(), (), ()] : Csr Unit).outer = .ok [[(1, ()), (2, ())], [], [(0, ())]] := by
  refine ⟨⟨by decide, rfl, by simp [ofVectors], rfl, rfl⟩, by decide⟩

/-! ## C09 -/

/-- C09, directed edge lists: whatever the order of the atomic increments, the array counts the edges at
endpoint `idx` of each vertex. -/
theorem degrees_directed_all_schedules (sched : List Nat → List Nat) (hs : IsSchedule sched) (el : EdgeList α)
    (hw : el.Wf) (hb : EndpointsBelow el.numVertices el.contents) (idx : Nat) :
    el.degrees sched true idx = .ok ((List.range el.numVertices).map fun u =>
      if idx = 0 then (outEdges el.contents u).length else (inEdges el.contents u).length) := by
  rw [degrees_directed hs hw hb]
  congr 1
  apply List.map_congr_left
  intro u _
  rw [oriented_keys]
  generalize el.contents = es
  split
  · induction es with
    | nil => rfl
    | cons e es ih =>
      simp only [outEdges, List.filter_cons, List.map_cons, List.count_cons] at ih ⊢
      by_cases c1 : e.1 = u <;> simp [c1, ih]
  · induction es with
    | nil => rfl
    | cons e es ih =>
      simp only [inEdges, List.filter_cons, List.map_cons, List.count_cons] at ih ⊢
      by_cases c1 : e.2.1 = u <;> simp [c1, ih]

/-- C09, undirected edge lists: both endpoints are counted (a self loop twice). -/
theorem degrees_undirected_all_schedules (sched : List Nat → List Nat) (hs : IsSchedule sched) (el : EdgeList α)
    (hw : el.Wf) (hb : EndpointsBelow el.numVertices el.contents) (idx : Nat) :
    el.degrees sched false idx = .ok ((List.range el.numVertices).map fun u =>
      (outEdges el.contents u).length + (inEdges el.contents u).length) := by
  have hev : el.degreeEvents false idx = el.contents.flatMap fun x => [x.1, x.2.1] := by
    have : el.col0.zip el.col1 = el.contents.map fun x => (x.1, x.2.1) := by
      unfold contents
      apply List.ext_getElem
      · simp; obtain ⟨h1, h2⟩ := hw; omega
      · intro i h1 h2; simp
    simp [degreeEvents, this, List.flatMap_map]
  unfold EdgeList.degrees
  rw [vincrAll_counts]
  · congr 1
    apply List.map_congr_left
    intro u _
    rw [(hs _).count_eq, hev]
    generalize el.contents = es
    induction es with
    | nil => rfl
    | cons e es ih =>
      simp only [List.flatMap_cons, List.count_append, ih, outEdges, inEdges, List.filter_cons]
      by_cases c1 : e.1 = u <;> by_cases c2 : e.2.1 = u <;> simp [c1, c2] <;> omega
  · intro i hi
    have : i ∈ el.degreeEvents false idx := (hs _).mem_iff.1 hi
    rw [hev, List.mem_flatMap] at this
    obtain ⟨x, hx, hi⟩ := this
    have := hb x hx
    simp at hi
    omega

/-- C09, compressed structures: both degree functions give the length of each row. -/
theorem csr_degrees (g : Csr α) (hg : g.Wf) :
    g.degreesPar = .ok g.degrees ∧ g.degrees.length = g.numVertices ∧
      ∀ u r, g.row u = .ok r → g.degrees[u]? = some r.length := by
  have hlen : g.degrees.length = g.numVertices := by simp [degrees, numVertices]
  refine ⟨?_, hlen, ?_⟩
  · refine mapM_range_eq (by rw [hlen]; rfl) ?_
    intro k hk
    rw [vget_of_lt (by omega), vget_of_lt (by omega)]
    simp [degrees]
  · intro u r hr
    have hu : u < g.numVertices := by
      rcases Nat.lt_or_ge u g.numVertices with h | h
      · exact h
      · rw [row_oob h] at hr; cases hr
    rw [hg.row hu] at hr
    injection hr with hr
    subst hr
    have h1 : u + 1 < g.indices.length := by unfold numVertices at hu; omega
    have h2 := hg.getElem_le_size h1
    have h3 := hg.attrs
    rw [List.getElem?_eq_getElem (by omega)]
    simp only [degrees, slice, edges, List.getElem_map, List.getElem_zip, List.getElem_drop, List.length_take,
      List.length_drop, List.length_zip, Nat.add_comm 1 u, Option.some.injEq]
    omega

/-! ## C10 -/

theorem takeWhile_le_spec (l : List Nat) (k : Nat) (hs : l.Pairwise (· ≤ ·)) :
    (∀ i (hi : i < l.length), i < (l.takeWhile fun x => decide (x ≤ k)).length → l[i] ≤ k) ∧
    (∀ i (hi : i < l.length), (l.takeWhile fun x => decide (x ≤ k)).length ≤ i → k < l[i]) := by
  induction l with
  | nil => simp
  | cons x xs ih =>
    rw [List.pairwise_cons] at hs
    obtain ⟨h1, h2⟩ := ih hs.2
    by_cases hx : x ≤ k
    · simp only [List.takeWhile_cons, hx, decide_true, if_true]
      constructor
      · intro i hi hl
        cases i with
        | zero => simpa using hx
        | succ i => simpa using h1 i (by simpa using hi) (by simpa using hl)
      · intro i hi hl
        cases i with
        | zero => simp at hl
        | succ i => simpa using h2 i (by simpa using hi) (by simpa using hl)
    · simp only [List.takeWhile_cons, hx, decide_false]
      constructor
      · intro i hi hl; simp at hl
      · intro i hi _
        cases i with
        | zero => simp; omega
        | succ i =>
          have := hs.1 (xs[i]'(by simpa using hi)) (by simp)
          simp; omega

/-- C10. For every edge position `k`, `source(k)` is the vertex whose row contains position `k`: it is a vertex, `k` lies
between its bounds (so rows without edges are skipped), and the edge stored at `k` is the corresponding
entry of its row. -/
theorem csr_source (g : Csr α) (hg : g.Wf) (k : Nat) (hk : k < g.numEdges) :
    g.source k < g.numVertices ∧ ∃ b e r x, g.rowBounds (g.source k) = .ok (b, e) ∧ b ≤ k ∧ k < e ∧
      g.row (g.source k) = .ok r ∧ g.edgeAt k = .ok x ∧ r[k - b]? = some x := by
  obtain ⟨s1, s2⟩ := takeWhile_le_spec g.indices k hg.mono
  generalize hj : (g.indices.takeWhile fun x => decide (x ≤ k)).length = j at s1 s2
  have hne : 0 < g.indices.length := List.length_pos_iff.2 hg.ne
  have hlast : g.indices[g.indices.length - 1]'(by omega) = g.tgt.length := by
    have := hg.last
    rw [List.getLast?_eq_getElem?, List.getElem?_eq_getElem (by omega)] at this
    simpa using this
  have hfirst : g.indices[0] = 0 := by
    have := hg.first
    rw [List.getElem?_eq_getElem hne] at this
    simpa using this
  have hj0 : 0 < j := by
    rcases Nat.eq_zero_or_pos j with h | h
    · have := s2 0 hne (by omega); omega
    · exact h
  have hjl : j < g.indices.length := by
    rcases Nat.lt_or_ge j g.indices.length with h | h
    · exact h
    · have := s1 (g.indices.length - 1) (by omega) (by omega)
      unfold numEdges at hk; omega
  have hsrc : g.source k = j - 1 := by simp [source, hj]
  have hu : j - 1 < g.numVertices := by unfold numVertices; omega
  have hb := s1 (j - 1) (by omega) (by omega)
  have he := s2 j hjl (by omega)
  have hjj : j - 1 + 1 = j := by omega
  have hle := hg.getElem_le_size hjl
  rw [hsrc]
  refine ⟨hu, g.indices[j - 1]'(by omega), g.indices[j], _, _, ?_, hb, he, hg.row hu, edgeAt_of_lt hg.attrs hk, ?_⟩
  · simp only [rowBounds, vget_of_lt (v := g.indices) (i := j - 1) (by omega), hjj, vget_of_lt hjl, res_bind_ok]
    rw [if_neg (by omega)]; rfl
  · have hat := hg.attrs
    unfold numEdges at hk
    simp only [slice, hjj]
    rw [List.getElem?_take_of_lt (by omega), List.getElem?_drop,
      show g.indices[j - 1]'(by omega) + (k - g.indices[j - 1]'(by omega)) = k by omega]
    exact List.getElem?_eq_getElem _

example : (ofVectors [0, 2, 2, 3] [1, 2, 0] [(), (), ()] : Csr Unit).source 2 = 2 ∧
    (ofVectors [0, 2, 2, 3] [1, 2, 0] [(), (), ()] : Csr Unit).source 1 = 0 := by decide

end NW.Csr
