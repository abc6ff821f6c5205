import Verif.Lemmas.TcBench

/-!
# C109: the triangle counting benchmark

Stated for the triangles of the simple graph under the edge list that was read (`Spec/JoinedBy`): `tc` reports their number whatever the options do to the
graph on the way.
-/

namespace NW.TcBench
open Spec

/-- What is expected of the library for a graph of `n` vertices: every increment of a degree takes place once, in some order; the three sorts sort; the numbers drawn are vertices. -/
structure Lib.Conforms (L : Lib) (n : Nat) : Prop where
  sched : IsSchedule L.sched
  byDegree : Csr.SortsByDegree L.byDegree
  sortEdges : IsSort (EdgeList.lexicalLt (fun _ _ => false) 0) L.sortEdges
  sortSamples : IsSort (fun a b : Nat => decide (a < b)) L.sortSamples
  draw : ∀ t, L.draw t < n

/-- An edge list as `load_graph` returns it. -/
structure Loaded (el : EdgeList Unit) : Prop where
  wf : el.Wf
  below : EndpointsBelow el.numVertices el.contents

/-- The triangles of the edge list that was read. -/
def answer (el : EdgeList Unit) : Nat := (edgeTriangles el.numVertices el.contents).card

variable {L : Lib} {el : EdgeList Unit}

theorem degrees_ok (hL : L.Conforms el.numVertices) (he : Loaded el) :
    ∃ degree, el.degrees L.sched false 0 = .ok degree ∧ degree.length = el.numVertices :=
  ⟨_, Csr.degrees_undirected_all_schedules L.sched hL.sched el he.wf he.below 0, by simp⟩

/-- C109, the heuristic: with at least one vertex, `worth_relabeling` reads nothing out of bounds. -/
theorem worth_relabeling_safe (hL : L.Conforms el.numVertices) (hn : 0 < el.numVertices) (degree : List Nat) (hd : degree.length = el.numVertices) :
    ∃ b, worthRelabeling L el degree = .ok b := by
  unfold worthRelabeling
  rw [if_neg (by omega)]
  split
  · exact ⟨_, rfl⟩
  · have hm : (List.range (min 1000 el.numVertices)).mapM (fun trial => vget degree (L.draw trial)) =
        .ok ((List.range (min 1000 el.numVertices)).map fun trial => degree.getD (L.draw trial) 0) :=
      mapM_ok_of_forall fun t _ => by
        have := hL.draw t
        rw [vget_of_lt (by omega), List.getD_eq_getElem?_getD, List.getElem?_eq_getElem (by omega)]; rfl
    dsimp only
    rw [hm, res_bind_ok]
    have hlen : min 1000 el.numVertices / 2 < (L.sortSamples ((List.range (min 1000 el.numVertices)).map fun trial => degree.getD (L.draw trial) 0)).length := by
      rw [(hL.sortSamples.perm _).length_eq]; simp; omega
    rw [vget_of_lt hlen, res_bind_ok]
    exact ⟨_, rfl⟩

/-- C109, the heuristic on a graph without vertices divides by zero. -/
theorem heuristic_divides_by_zero (hL : L.Conforms el.numVertices) (he : Loaded el) (hn : el.numVertices = 0) (o : Opts) (ho : o.relabel = true ∧ o.heuristic = true) (f : Format) :
    prepare L o f el = .error .divByZero := by
  obtain ⟨degree, h1, -⟩ := degrees_ok hL he
  unfold prepare
  unfold relabels
  rw [h1, res_bind_ok, if_pos ho.1, if_pos ho.2]
  unfold worthRelabeling
  rw [if_pos hn]
  rfl

/-- C109, the graph that is searched.  Up to a renaming of the vertices, it lists for every vertex the larger (with `--lower`, the smaller) ones joined to it, in increasing order, each once, and not the vertex itself.
Without `--relabel`, nothing is renamed.  With `--relabel` and no heuristic, the degrees do not decrease with the number of the vertex (with `--lower`, they do not increase). -/
theorem prepare_correct (hL : L.Conforms el.numVertices) (he : Loaded el) (o : Opts) (f : Format) (hn : o.relabel = true → o.heuristic = true → 0 < el.numVertices) :
    ∃ (g : Rows Unit) (newId : List Nat), prepare L o f el = .ok g ∧ g.length = el.numVertices ∧ newId.Perm (List.range el.numVertices) ∧
      (if o.lower then Lower g (JoinedBy (el.contents.map (EdgeList.renameEdge fun v => newId.getD v 0))) else Upper g (JoinedBy (el.contents.map (EdgeList.renameEdge fun v => newId.getD v 0)))) ∧
      (o.relabel = false → newId = List.range el.numVertices) ∧
      (o.relabel = true → o.heuristic = false → ∀ i j, i < j → j < el.numVertices →
        if o.lower then (incident (el.contents.map (EdgeList.renameEdge fun v => newId.getD v 0)) j).length ≤ (incident (el.contents.map (EdgeList.renameEdge fun v => newId.getD v 0)) i).length
        else (incident (el.contents.map (EdgeList.renameEdge fun v => newId.getD v 0)) i).length ≤ (incident (el.contents.map (EdgeList.renameEdge fun v => newId.getD v 0)) j).length) := by
  obtain ⟨degree, h1, h2⟩ := degrees_ok hL he
  -- whether the vertices are renamed
  obtain ⟨r, hr, hr1, hr2⟩ : ∃ r, relabels L o el degree = .ok r ∧
      (o.relabel = false → r = false) ∧ (o.relabel = true → o.heuristic = false → r = true) := by
    unfold relabels
    cases h3 : o.relabel with
    | false => exact ⟨false, rfl, fun _ => rfl, fun h => by simp at h⟩
    | true =>
      cases h4 : o.heuristic with
      | false => exact ⟨true, rfl, fun h => by simp at h, fun _ _ => rfl⟩
      | true =>
        obtain ⟨b, hb⟩ := worth_relabeling_safe hL (hn h3 h4) degree h2
        exact ⟨b, hb, fun h => by simp at h, fun _ h => by simp at h⟩
  -- the edge list that is cleaned
  obtain ⟨el', newId, hel, hp, hv, hc, hid, hdeg⟩ : ∃ (el' : EdgeList Unit) (newId : List Nat),
      renamed L o r degree el = .ok el' ∧ newId.Perm (List.range el.numVertices) ∧ el'.numVertices = el.numVertices ∧
      el'.contents = el.contents.map (EdgeList.renameEdge fun v => newId.getD v 0) ∧ (r = false → newId = List.range el.numVertices) ∧
      (r = true → ∀ i j, i < j → j < el.numVertices →
        if o.lower then (incident el'.contents j).length ≤ (incident el'.contents i).length else (incident el'.contents i).length ≤ (incident el'.contents j).length) := by
    cases r with
    | false =>
      refine ⟨el, List.range el.numVertices, rfl, List.Perm.refl _, rfl, ?_, fun _ => rfl, fun h => by simp at h⟩
      conv => lhs; rw [← List.map_id el.contents]
      refine List.map_congr_left fun x hx => ?_
      have := he.below x hx
      simp only [EdgeList.renameEdge, List.getD_eq_getElem?_getD, List.getElem?_range this.1, List.getElem?_range this.2, Option.getD_some, id]
    | true =>
      obtain ⟨el', newId, e1, e2, e3, e4, e5, -⟩ := EdgeList.relabel_by_degree_correct L.sched hL.sched L.byDegree hL.byDegree false 0 o.direction el he.wf he.below
      refine ⟨el', newId, ?_, e2, e3, e4, fun h => by simp at h, fun _ i j hij hj => ?_⟩
      · show tcRelabel L o.direction degree el = _
        unfold tcRelabel
        have : el.relabelByDegree L.sched L.byDegree false 0 o.direction degree = el.relabelByDegree L.sched L.byDegree false 0 o.direction [] := by
          unfold EdgeList.relabelByDegree
          simp only [List.length_nil, if_true, h1]
          split <;> rfl
        rw [this, e1]
        rfl
      · have := e5 i j hij hj
        unfold Opts.direction at this
        cases h : o.lower with
        | true => simp only [h, if_true] at this ⊢; exact this.1 trivial
        | false => simp only [h, Bool.false_eq_true, if_false] at this ⊢; exact this.2 trivial
  -- the graph
  have hb' : EndpointsBelow el'.numVertices el'.contents := by
    rw [hv, hc]
    intro x hx
    obtain ⟨y, hy, rfl⟩ := List.mem_map.1 hx
    have hyb := he.below y hy
    have hlen : newId.length = el.numVertices := by simpa using hp.length_eq
    have key : ∀ v < el.numVertices, newId.getD v 0 < el.numVertices := fun v hv => by
      rw [List.getD_eq_getElem?_getD, List.getElem?_eq_getElem (by omega)]
      exact List.mem_range.1 (hp.mem_iff.1 (List.getElem_mem _))
    exact ⟨key _ hyb.1, key _ hyb.2⟩
  obtain ⟨g, g1, g2, g3⟩ := compress_clean f L hL.sortEdges o.succession el' hb'
  refine ⟨g, newId, ?_, by rw [g2, hv], hp, ?_, fun h => hid (hr1 h), fun h4 h5 => ?_⟩
  · unfold prepare
    rw [h1, res_bind_ok, hr, res_bind_ok, hel, res_bind_ok, g1]
  · rw [← hc]
    unfold Opts.succession at g3
    cases h : o.lower with
    | true => simpa only [h, if_true] using g3
    | false => simpa only [h, Bool.false_eq_true, if_false] using g3
  · rw [← hc]; exact hdeg (hr2 h4 h5)

/-- The versions that want the upper triangle. -/
theorem count_upper {g : Rows Unit} {Adj : Nat → Nat → Prop} [DecidableRel Adj] (hsym : ∀ a b, Adj a b → Adj b a) (h : Upper g Adj) {w id threads : Nat} (hid : id ≤ 14 ∧ id ≠ 11)
    (ht : 0 < threads) (ht1 : threads ≤ 2 ^ 62) (ht2 : threads < 2 ^ w) (hg : g.length < 2 ^ w) : Run.Gives (count w id threads g) (· = (triangles g.length Adj).card) := by
  obtain ⟨h1, h2⟩ := hid
  unfold count
  split
  · exact Run.gives_lift (Triangle.triangle_count_correct g Adj hsym (.inl h)) rfl
  · exact Run.gives_lift (Triangle.triangle_count_v1 g _ hsym h) rfl
  · exact Run.gives_lift (Triangle.triangle_count_v2 g _ hsym (.inl h)) rfl
  · exact Triangle.triangle_count_v3 g _ hsym (.inl h)
  · exact Run.gives_lift (Triangle.triangle_count_parallel g Adj hsym h threads ht).2 rfl
  · exact Run.gives_lift (Triangle.triangle_count_v5 g _ hsym h w threads ht ht2 hg) rfl
  · exact Run.gives_lift (Triangle.triangle_count_v6 g _ hsym (.inl h) threads ht) rfl
  · exact Triangle.triangle_count_v7 g _ hsym h
  · exact Triangle.triangle_count_v7 g _ hsym h
  · exact Triangle.triangle_count_v7 g _ hsym h
  · exact Triangle.triangle_count_v10 g _ hsym (.inl h)
  · exact Triangle.triangle_count_v12 g _ hsym h threads ht ht1
  · exact Triangle.triangle_count_v13 g _ hsym (.inl h) threads ht ht1
  · exact Triangle.triangle_count_v14 g _ hsym (.inl h)
  · rename_i a0 a1 a2 a3 a4 a5 a6 a7 a8 a9 a10 a12 a13 a14
    exfalso
    simp only [imp_false] at *
    omega

/-- C109: `tc` reports the number of triangles of the graph that was read, for every version but 11, every number of threads, every format, and whether the vertices are relabelled or not. -/
theorem bench_correct_partial (hL : L.Conforms el.numVertices) (he : Loaded el) (o : Opts) (hlow : o.lower = false) (hn : o.relabel = true → o.heuristic = true → 0 < el.numVertices) (f : Format)
    {w id threads : Nat} (hid : id ≤ 14 ∧ id ≠ 11) (ht : 0 < threads) (ht1 : threads ≤ 2 ^ 62) (ht2 : threads < 2 ^ w) (hg : el.numVertices < 2 ^ w) :
    Run.Gives (bench L o f w id threads el) (· = answer el) := by
  obtain ⟨g, newId, h1, h2, h3, h4, -⟩ := prepare_correct hL he o f hn
  simp only [hlow, Bool.false_eq_true, if_false] at h4
  unfold bench
  refine Run.Gives.bind (Run.gives_lift h1 rfl) ?_
  rintro _ rfl
  refine (count_upper (fun _ _ h => h.symm) h4 hid ht ht1 ht2 (by omega)).mono ?_
  rintro _ rfl
  rw [h2]
  exact edgeTriangles_rename he.below h3

/-- C109, `--lower`: so do the versions that take whole rows. -/
theorem bench_lower_partial (hL : L.Conforms el.numVertices) (he : Loaded el) (o : Opts) (hlow : o.lower = true) (hn : o.relabel = true → o.heuristic = true → 0 < el.numVertices) (f : Format)
    {w id threads : Nat} (hid : id ∈ [0, 2, 3, 6, 10, 13, 14]) (ht : 0 < threads) (ht1 : threads ≤ 2 ^ 62) :
    Run.Gives (bench L o f w id threads el) (· = answer el) := by
  obtain ⟨g, newId, h1, h2, h3, h4, -⟩ := prepare_correct hL he o f hn
  simp only [hlow, if_true] at h4
  unfold bench
  refine Run.Gives.bind (Run.gives_lift h1 rfl) ?_
  rintro _ rfl
  have hsym : ∀ a b, JoinedBy (el.contents.map (EdgeList.renameEdge fun v => newId.getD v 0)) a b → JoinedBy (el.contents.map (EdgeList.renameEdge fun v => newId.getD v 0)) b a := fun _ _ h => h.symm
  have hfin : (triangles g.length (JoinedBy (el.contents.map (EdgeList.renameEdge fun v => newId.getD v 0)))).card = answer el := by
    rw [h2]; exact edgeTriangles_rename he.below h3
  rw [← hfin]
  simp only [List.mem_cons, List.not_mem_nil, or_false] at hid
  rcases hid with rfl | rfl | rfl | rfl | rfl | rfl | rfl
  · exact Run.gives_lift (Triangle.triangle_count_correct g _ hsym (.inr h4)) rfl
  · exact Run.gives_lift (Triangle.triangle_count_v2 g _ hsym (.inr h4)) rfl
  · exact Triangle.triangle_count_v3 g _ hsym (.inr h4)
  · exact Run.gives_lift (Triangle.triangle_count_v6 g _ hsym (.inr h4) threads ht) rfl
  · exact Triangle.triangle_count_v10 g _ hsym (.inr h4)
  · exact Triangle.triangle_count_v13 g _ hsym (.inr h4) threads ht ht1
  · exact Triangle.triangle_count_v14 g _ hsym (.inr h4)

/-- C109, `--lower` with the default version 4, or with 1, 5, 7, 8, 9 or 12: the answer is 0 for every graph. -/
theorem bench_lower_reports_zero (hL : L.Conforms el.numVertices) (he : Loaded el) (o : Opts) (hlow : o.lower = true) (hn : o.relabel = true → o.heuristic = true → 0 < el.numVertices) (f : Format)
    {w id threads : Nat} (hid : id ∈ [1, 4, 5, 7, 8, 9, 12]) (ht : 0 < threads) (ht1 : threads ≤ 2 ^ 62) (ht2 : threads < 2 ^ w) (hg : el.numVertices < 2 ^ w) :
    Run.Gives (bench L o f w id threads el) (· = 0) := by
  obtain ⟨g, newId, h1, h2, h3, h4, -⟩ := prepare_correct hL he o f hn
  simp only [hlow, if_true] at h4
  unfold bench
  refine Run.Gives.bind (Run.gives_lift h1 rfl) ?_
  rintro _ rfl
  simp only [List.mem_cons, List.not_mem_nil, or_false] at hid
  rcases hid with rfl | rfl | rfl | rfl | rfl | rfl | rfl
  · exact Run.gives_lift (lower_v1 h4) rfl
  · exact Run.gives_lift (Triangle.triangle_count_parallel_lower g _ h4 threads) rfl
  · exact Run.gives_lift (lower_v5 h4 w threads ht ht2 (by omega)) rfl
  · exact lower_v7 h4
  · exact lower_v7 h4
  · exact lower_v7 h4
  · exact lower_v12 h4 threads ht ht1

/-- C109, `--verify`.  If writing into memory that has been reserved is taken to work, the number to compare with is the number of triangles, with `--lower` too. -/
theorem verifier_correct_partial (hL : L.Conforms el.numVertices) (he : Loaded el) (o : Opts) (hn : o.relabel = true → o.heuristic = true → 0 < el.numVertices) (f : Format) :
    Run.Gives (verify false L o f el) (· = answer el) := by
  obtain ⟨g, newId, h1, h2, h3, h4, -⟩ := prepare_correct hL he o f hn
  unfold verify
  refine Run.Gives.bind (Run.gives_lift h1 rfl) ?_
  rintro _ rfl
  refine (tcVerifier_lenient (fun _ _ h => h.symm) (Adj := JoinedBy (el.contents.map (EdgeList.renameEdge fun v => newId.getD v 0))) ?_).mono ?_
  · split at h4
    · exact .inr h4
    · exact .inl h4
  · rintro _ rfl
    rw [h2]
    exact edgeTriangles_rename he.below h3

/-- C109, `--verify`.  In fact the verifier writes beyond the end of an empty vector as soon as the graph has a triangle, and only then. -/
theorem verifier_out_of_bounds (hL : L.Conforms el.numVertices) (he : Loaded el) (o : Opts) (hn : o.relabel = true → o.heuristic = true → 0 < el.numVertices) (f : Format) :
    if answer el = 0 then Run.Gives (verify true L o f el) (· = 0) else Run.Faults (verify true L o f el) .outOfBounds := by
  obtain ⟨g, newId, h1, h2, h3, h4, -⟩ := prepare_correct hL he o f hn
  have hlu : Upper g (JoinedBy (el.contents.map (EdgeList.renameEdge fun v => newId.getD v 0))) ∨ Lower g (JoinedBy (el.contents.map (EdgeList.renameEdge fun v => newId.getD v 0))) := by
    split at h4
    · exact .inr h4
    · exact .inl h4
  have hs := tcVerifier_strict (fun _ _ h => h.symm) hlu
  have hfin : triangles g.length (JoinedBy (el.contents.map (EdgeList.renameEdge fun v => newId.getD v 0))) = ∅ ↔ answer el = 0 := by
    rw [← Finset.card_eq_zero, h2]
    exact Eq.congr_left (edgeTriangles_rename he.below h3)
  unfold verify
  by_cases h0 : answer el = 0
  · rw [if_pos h0]
    rw [if_pos (hfin.2 h0)] at hs
    refine Run.Gives.bind (Run.gives_lift h1 rfl) ?_
    rintro _ rfl
    exact hs
  · rw [if_neg h0]
    rw [if_neg fun h => h0 (hfin.1 h)] at hs
    refine Run.Gives.bind_faults (Run.gives_lift h1 rfl) ?_
    rintro _ rfl
    exact hs

/-! ## The hypotheses can be met: two triangles that share an edge, with a loop and repeated edges -/

/-- The contracts with insertion sort. -/
def exLib : Lib := ⟨id, fun lt => EdgeList.insertionSort lt, EdgeList.insertionSort (EdgeList.lexicalLt (fun _ _ => false) 0), EdgeList.insertionSort fun a b => decide (a < b), fun _ => 0⟩

theorem exLib_conforms {n : Nat} (hn : 0 < n) : exLib.Conforms n := by
  refine ⟨fun _ => List.Perm.refl _, fun d key => ?_, ?_, ?_, fun _ => hn⟩
  · refine (EdgeList.insertionSort_stable ?_ ?_ ?_).toIsSort <;> cases d <;> simp [Csr.degLt] <;> omega
  · refine (EdgeList.insertionSort_stable ?_ ?_ ?_).toIsSort <;> simp [EdgeList.lexicalLt, EdgeList.tupleLt] <;> omega
  · refine (EdgeList.insertionSort_stable ?_ ?_ ?_).toIsSort <;> simp <;> omega

def exEl : EdgeList Unit := ⟨5, false, [0, 1, 0, 2, 1, 2, 1, 3], [1, 0, 2, 1, 3, 3, 1, 2], [(), (), (), (), (), (), (), ()]⟩

theorem exEl_loaded : Loaded exEl := ⟨⟨rfl, rfl⟩, by simp [EndpointsBelow, exEl, EdgeList.contents, EdgeList.numVertices]⟩

theorem exEl_answer : answer exEl = 2 := by decide +kernel

/-- Every option, version 4 with three threads. -/
example (relabel heuristic : Bool) (f : Format) : Run.Gives (bench exLib ⟨false, relabel, heuristic⟩ f 64 4 3 exEl) (· = 2) := by
  rw [← exEl_answer]
  exact bench_correct_partial (exLib_conforms (by decide)) exEl_loaded _ rfl (fun _ _ => by decide) f (by decide) (by decide) (by decide) (by decide) (by decide)

/-- `tc --lower`, as the options are by default, finds no triangles in a graph that has two. -/
example : Run.Gives (bench exLib ⟨true, false, false⟩ .csr 64 4 3 exEl) (· = 0) :=
  bench_lower_reports_zero (exLib_conforms (by decide)) exEl_loaded _ rfl (fun _ _ => by decide) .csr (by decide) (by decide) (by decide) (by decide) (by decide)

example : Run.Gives (bench exLib ⟨true, false, false⟩ .csr 64 0 3 exEl) (· = 2) := by
  rw [← exEl_answer]
  exact bench_lower_partial (exLib_conforms (by decide)) exEl_loaded _ rfl (fun _ _ => by decide) .csr (by decide) (by decide) (by decide)

example : Run.Faults (verify true exLib ⟨false, false, false⟩ .csr exEl) .outOfBounds := by
  have := verifier_out_of_bounds (exLib_conforms (by decide)) exEl_loaded ⟨false, false, false⟩ (fun _ _ => by decide) .csr
  rwa [if_neg (by rw [exEl_answer]; decide)] at this

example : ∃ g, prepare exLib ⟨false, true, false⟩ .lists exEl = .ok g ∧ g.length = 5 := by
  obtain ⟨g, _, h1, h2, -⟩ := prepare_correct (exLib_conforms (by decide)) exEl_loaded ⟨false, true, false⟩ .lists (fun _ _ => by decide)
  exact ⟨g, h1, h2⟩

end NW.TcBench
