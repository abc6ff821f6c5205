import Mathlib.Data.List.Perm.Subperm
import Mathlib.Data.List.Induction
import Mathlib.Data.List.Nodup
import Verif.Props.Build

/-!
# C18–C21: relabelling by degree, graphs from labelled data, join
-/

namespace NW
open Spec

/-! ## C18 -/

theorem perm_range_of_inverse {p q : List Nat} {n : Nat} (hp : p.Perm (List.range n)) (hq : q.length = n)
    (h : ∀ k (hk : k < p.length), q[p[k]]? = some k) : q.Perm (List.range n) := by
  have hl : p.length = n := by simpa using hp.length_eq
  have hsub : List.range n ⊆ q := by
    intro k hk
    have hk' : k < p.length := by rw [hl]; simpa using hk
    exact List.mem_of_getElem? (h k hk')
  exact ((List.subperm_of_subset List.nodup_range hsub).perm_of_length_le (by simp [hq])).symm

namespace EdgeList
variable {α : Type}

/-- Both endpoints of an edge renamed. -/
def renameEdge (f : Nat → Nat) (x : Nat × Nat × α) : Nat × Nat × α := (f x.1, f x.2.1, x.2.2)

/-- The degree of `u` in an edge list: edges leaving it (directed, `idx = 0`), entering it (directed, `idx = 1`), or edge
endpoints at it (undirected). -/
def degreeIn (directed : Bool) (idx : Nat) (es : List (Nat × Nat × α)) (u : Nat) : Nat :=
  if directed then (if idx = 0 then (outEdges es u).length else (inEdges es u).length) else (incident es u).length

theorem relabel_ok (perm : List Nat) (n : Nat) (hp : perm.Perm (List.range n)) (el : EdgeList α)
    (hb : EndpointsBelow n el.contents) :
    ∃ (el' : EdgeList α) (newId : List Nat), el.relabel perm = .ok (el', newId) ∧ newId.Perm (List.range n) ∧
      (∀ k (hk : k < perm.length), newId[perm[k]]? = some k) ∧
      el'.numVertices = el.numVertices ∧ el'.Wf ∧ el'.contents = el.contents.map (renameEdge fun v => newId.getD v 0) := by
  obtain ⟨q, h1, h2, h3⟩ := Csr.invertPerm_ok hp
  have hm : el.edges.mapM (fun x => do
      let u ← vget q x.1
      let v ← vget q x.2.1
      return (u, v, x.2.2) : _ → Res (Nat × Nat × α)) = .ok (el.edges.map (renameEdge fun v => q.getD v 0)) := by
    apply mapM_ok_of_forall
    intro x hx
    have hx' := hb x hx
    rw [vget_of_lt (by omega), res_bind_ok, vget_of_lt (by omega), res_bind_ok]
    simp only [renameEdge, List.getD_eq_getElem?_getD]
    rw [List.getElem?_eq_getElem (by omega), List.getElem?_eq_getElem (by omega)]
    rfl
  obtain ⟨c1, c2, c3⟩ := withContents_contents el (el.edges.map (renameEdge fun v => q.getD v 0))
  refine ⟨_, q, ?_, perm_range_of_inverse hp h2 h3, h3, c3, c2, c1⟩
  unfold relabel
  rw [h1, res_bind_ok, hm, res_bind_ok]; rfl

theorem degreeIn_rename (directed : Bool) (idx : Nat) (f : Nat → Nat) (es : List (Nat × Nat × α)) (u n : Nat) (hu : u < n)
    (hb : EndpointsBelow n es) (hf : ∀ a b, a < n → b < n → f a = f b → a = b) :
    degreeIn directed idx (es.map (renameEdge f)) (f u) = degreeIn directed idx es u := by
  have key : ∀ v, v < n → (f v = f u ↔ v = u) := fun v hv => ⟨fun h => hf _ _ hv hu h, fun h => by rw [h]⟩
  unfold degreeIn
  induction es with
  | nil => rfl
  | cons x xs ih =>
    have hx := hb x (by simp)
    have ih' := ih (fun y hy => hb y (by simp [hy]))
    have k1 := key x.1 hx.1
    have k2 := key x.2.1 hx.2
    cases directed <;> by_cases hi : idx = 0 <;> by_cases h1 : x.1 = u <;> by_cases h2 : x.2.1 = u <;>
      simp_all [outEdges, inEdges, incident, renameEdge]

/-- C18. `relabel_by_degree<idx>(el, direction)` succeeds; the new ids are a permutation of the vertex ids; each edge keeps its
position and attributes and has both endpoints renamed; and in the renamed list the degrees are monotone in the vertex ids.
This for every execution order of the parallel degree count and every conforming sort. -/
theorem relabel_by_degree_correct (sched : List Nat → List Nat) (hsch : IsSchedule sched)
    (srt : (Nat → Nat → Bool) → List Nat → List Nat) (hs : Csr.SortsByDegree srt) (directed : Bool) (idx : Nat)
    (d : Csr.Direction) (el : EdgeList α) (hw : el.Wf) (hb : EndpointsBelow el.numVertices el.contents) :
    ∃ (el' : EdgeList α) (newId : List Nat),
      el.relabelByDegree sched srt directed idx d [] = .ok (el', newId) ∧
      newId.Perm (List.range el.numVertices) ∧ el'.numVertices = el.numVertices ∧
      el'.contents = el.contents.map (renameEdge fun v => newId.getD v 0) ∧
      (∀ i j, i < j → j < el.numVertices →
        (d = .descending → degreeIn directed idx el'.contents j ≤ degreeIn directed idx el'.contents i) ∧
        (d = .ascending → degreeIn directed idx el'.contents i ≤ degreeIn directed idx el'.contents j)) ∧
      (d = .other → el'.contents = el.contents) := by
  have hdeg : el.degrees sched directed idx =
      .ok ((List.range el.numVertices).map fun u => degreeIn directed idx el.contents u) := by
    cases directed
    · rw [Csr.degrees_undirected_all_schedules sched hsch el hw hb]
      congr 1
      apply List.map_congr_left
      intro u _
      simp only [degreeIn, Bool.false_eq_true, if_false]
      generalize el.contents = es
      induction es with
      | nil => rfl
      | cons x xs ih =>
        simp only [outEdges, inEdges, incident] at ih ⊢
        by_cases h1 : x.1 = u <;> by_cases h2 : x.2.1 = u <;> simp_all <;> omega
    · rw [Csr.degrees_directed_all_schedules sched hsch el hw hb]
      rfl
  let n := el.numVertices
  let deg := fun u => degreeIn directed idx el.contents u
  let perm := permByDegree srt ((List.range n).map deg) d
  have hp : perm.Perm (List.range n) := by
    show (permByDegree srt _ d).Perm _
    unfold permByDegree
    split
    · simp
    · have := (hs d fun a => (((List.range n).map deg)[a]?).getD 0).perm (List.range ((List.range n).map deg).length)
      simpa using this
  obtain ⟨el', newId, e1, e2, e3, e4, e5, e6⟩ := relabel_ok perm n hp el hb
  have hnl : newId.length = n := by simpa using e2.length_eq
  have hpl : perm.length = n := by simpa using hp.length_eq
  have hinj : ∀ a b, a < n → b < n → newId.getD a 0 = newId.getD b 0 → a = b := by
    intro a b ha hb' he
    have hnd : newId.Nodup := e2.symm.nodup List.nodup_range
    rw [List.getD_eq_getElem?_getD, List.getD_eq_getElem?_getD, List.getElem?_eq_getElem (by omega),
      List.getElem?_eq_getElem (by omega)] at he
    exact (List.Nodup.getElem_inj_iff hnd).1 he
  have hplt : ∀ i (hi : i < perm.length), perm[i] < n := fun i hi => by
    simpa using hp.mem_iff.1 (List.getElem_mem hi)
  have hdeg' : ∀ i (hi : i < perm.length), degreeIn directed idx el'.contents i = deg perm[i] := by
    intro i hi
    have h3 := e3 i hi
    have : i = newId.getD perm[i] 0 := by rw [List.getD_eq_getElem?_getD, h3]; rfl
    rw [e6]
    conv => lhs; rw [this]
    exact degreeIn_rename directed idx _ _ _ n (hplt i hi) hb hinj
  refine ⟨el', newId, ?_, e2, e4, e6, ?_, ?_⟩
  · unfold relabelByDegree
    simp only [List.length_nil, if_true, hdeg, res_bind_ok]
    exact e1
  · intro i j hij hj
    rw [hdeg' i (by omega), hdeg' j (by omega)]
    have hsort : d ≠ .other → Csr.degLt d (fun a => (((List.range n).map deg)[a]?).getD 0) (perm[j]'(by omega))
        (perm[i]'(by omega)) = false := by
      intro hd
      have := (hs d fun a => (((List.range n).map deg)[a]?).getD 0).sorted (List.range ((List.range n).map deg).length)
      have hperm : perm = srt (Csr.degLt d fun a => (((List.range n).map deg)[a]?).getD 0)
          (List.range ((List.range n).map deg).length) := by
        show permByDegree _ _ _ = _
        unfold permByDegree
        rw [if_neg hd]
      rw [← hperm] at this
      exact List.pairwise_iff_getElem.1 this i j _ _ hij
    have g1 := hplt i (by omega)
    have g2 := hplt j (by omega)
    constructor <;> intro hd <;> subst hd <;> have := hsort (by simp) <;>
      simpa [Csr.degLt, g1, g2] using this
  · intro hd
    have hperm : perm = List.range n := by
      show permByDegree _ _ _ = _
      unfold permByDegree
      rw [if_pos hd]; simp
    rw [e6]
    conv => rhs; rw [← List.map_id el.contents]
    apply List.map_congr_left
    intro x hx
    have hid : ∀ v, v < n → newId.getD v 0 = v := by
      intro v hv
      have := e3 v (by omega)
      simp only [hperm, List.getElem_range] at this
      rw [List.getD_eq_getElem?_getD, this]; rfl
    have := hb x hx
    simp only [renameEdge, hid _ this.1, hid _ this.2]; rfl

/-- A degree array given by the caller that is too short for the vertex ids makes the renaming read out of bounds. -/
theorem relabel_short_degrees_oob : ∃ (el : EdgeList Unit) (given : List Nat),
    el.Wf ∧ EndpointsBelow el.numVertices el.contents ∧ given.length < el.numVertices ∧
    el.relabelByDegree id (fun _ => id) true 0 .other given = .error .outOfBounds :=
  ⟨⟨3, false, [2], [0], [()]⟩, [1, 1], ⟨rfl, rfl⟩, by simp [EndpointsBelow, contents, numVertices], by decide, by decide⟩

/-- C18 for bipartite lists: `relabel<idx>` renames only endpoint `idx`, by the inverse of the given permutation. -/
theorem relabel_side_ok (idx : Nat) (perm : List Nat) (n : Nat) (hp : perm.Perm (List.range n)) (el : EdgeList α)
    (hb : ∀ x ∈ el.contents, rowEnd idx x < n) :
    ∃ (el' : EdgeList α) (newId : List Nat), el.relabelSide idx perm = .ok (el', newId) ∧ newId.Perm (List.range n) ∧
      (∀ (k v : Nat), perm[k]? = some v → newId[v]? = some k) ∧
      el'.numVertices = el.numVertices ∧
      el'.contents = el.contents.map (fun x =>
        if idx = 0 then (newId.getD x.1 0, x.2.1, x.2.2) else (x.1, newId.getD x.2.1 0, x.2.2)) := by
  obtain ⟨q, h1, h2, h3⟩ := Csr.invertPerm_ok hp
  have hm : el.edges.mapM (fun x => do
      if idx = 0 then
        let u ← vget q x.1
        return (u, x.2.1, x.2.2)
      else
        let v ← vget q x.2.1
        return (x.1, v, x.2.2) : _ → Res (Nat × Nat × α)) = .ok (el.edges.map (fun x =>
        if idx = 0 then (q.getD x.1 0, x.2.1, x.2.2) else (x.1, q.getD x.2.1 0, x.2.2))) := by
    apply mapM_ok_of_forall
    intro x hx
    have hx' := hb x hx
    unfold rowEnd at hx'
    by_cases hi : idx = 0
    · simp only [if_pos hi] at hx' ⊢
      rw [vget_of_lt (by omega), res_bind_ok, List.getD_eq_getElem?_getD, List.getElem?_eq_getElem (by omega)]; rfl
    · simp only [if_neg hi] at hx' ⊢
      rw [vget_of_lt (by omega), res_bind_ok, List.getD_eq_getElem?_getD, List.getElem?_eq_getElem (by omega)]; rfl
  obtain ⟨c1, c2, c3⟩ := withContents_contents el (el.edges.map (fun x =>
        if idx = 0 then (q.getD x.1 0, x.2.1, x.2.2) else (x.1, q.getD x.2.1 0, x.2.2)))
  refine ⟨_, q, ?_, perm_range_of_inverse hp h2 h3, ?_, c3, c1⟩
  · unfold relabelSide
    rw [h1, res_bind_ok, hm, res_bind_ok]; rfl
  · intro k v hk
    obtain ⟨hk', rfl⟩ := List.getElem?_eq_some_iff.1 hk
    exact h3 k hk'

example : let el : EdgeList Nat := ⟨3, false, [0, 1, 1], [1, 2, 0], [7, 8, 9]⟩
    el.Wf ∧ EndpointsBelow el.numVertices el.contents ∧ IsSchedule (id : List Nat → List Nat) ∧
      (∃ srt, Csr.SortsByDegree srt) := by
  refine ⟨⟨rfl, rfl⟩, by simp [EndpointsBelow, contents, numVertices], fun l => List.Perm.refl _, Csr.exists_sortsByDegree⟩

end EdgeList

/-! ## C19, C20 -/

namespace Labels
variable {L α : Type} [DecidableEq L]

omit [DecidableEq L] in
theorem indexMap_concat (vs : List L) (x : L) : indexMap (vs ++ [x]) = (x, vs.length) :: indexMap vs := by
  simp [indexMap, List.zipIdx_append]

/-- A known label is looked up to its last position. -/
theorem lookup_known (vs : List L) (l : L) (h : l ∈ vs) :
    vs[lookup (indexMap vs) l]? = some l ∧ ∀ j, lookup (indexMap vs) l < j → vs[j]? ≠ some l := by
  induction vs using List.reverseRecOn with
  | nil => simp at h
  | append_singleton vs x ih =>
    rw [indexMap_concat]
    by_cases hx : x = l
    · have : lookup ((x, vs.length) :: indexMap vs) l = vs.length := by simp [lookup, hx]
      rw [this]
      refine ⟨by simp [hx], ?_⟩
      intro j hj
      rw [List.getElem?_eq_none (by simp; omega)]; simp
    · have hl : lookup ((x, vs.length) :: indexMap vs) l = lookup (indexMap vs) l := by simp [lookup, hx]
      rw [hl]
      have hm : l ∈ vs := by
        rcases List.mem_append.1 h with h | h
        · exact h
        · simp at h; exact absurd h.symm hx
      obtain ⟨h1, h2⟩ := ih hm
      have hlt : lookup (indexMap vs) l < vs.length := by
        rcases Nat.lt_or_ge (lookup (indexMap vs) l) vs.length with c | c
        · exact c
        · rw [List.getElem?_eq_none c] at h1; cases h1
      refine ⟨by rw [List.getElem?_append_left hlt, h1], ?_⟩
      intro j hj
      rcases Nat.lt_or_ge j vs.length with c | c
      · rw [List.getElem?_append_left c]; exact h2 j hj
      · rw [List.getElem?_append_right c]
        intro hc
        have := List.mem_of_getElem? hc
        simp at this; exact hx this.symm

/-- An unknown label is looked up to 0. -/
theorem lookup_unknown (vs : List L) (l : L) (h : l ∉ vs) : lookup (indexMap vs) l = 0 := by
  have : (indexMap vs).find? (fun p => decide (p.1 = l)) = none := by
    rw [List.find?_eq_none]
    intro p hp
    simp only [decide_eq_true_eq]
    rintro rfl
    exact h (List.fst_mem_of_mem_zipIdx (List.mem_reverse.1 hp))
  simp [lookup, this]

theorem lookup_lt (vs : List L) (l : L) (h : l ∈ vs) : lookup (indexMap vs) l < vs.length := by
  have := (lookup_known vs l h).1
  rcases Nat.lt_or_ge (lookup (indexMap vs) l) vs.length with c | c
  · exact c
  · rw [List.getElem?_eq_none c] at this; cases this

theorem lookup_eq_idxOf (vs : List L) (hv : vs.Nodup) (l : L) (h : l ∈ vs) :
    lookup (indexMap vs) l = vs.idxOf l := by
  have h1 := (lookup_known vs l h).1
  have h2 := lookup_lt vs l h
  have h3 : vs.idxOf l < vs.length := List.idxOf_lt_length_iff.2 h
  rw [List.getElem?_eq_getElem h2] at h1
  injection h1 with h1
  have h4 : vs[vs.idxOf l] = l := List.getElem_idxOf h3
  exact (List.Nodup.getElem_inj_iff hv).1 (h1.trans h4.symm)

/-- An edge between labels as an edge between the positions of the labels. -/
def byPosition (vs ws : List L) (e : L × L × α) : Nat × Nat × α := (vs.idxOf e.1, ws.idxOf e.2.1, e.2.2)

/-- All edges mention known labels. -/
def LabelsKnown (vs ws : List L) (es : List (L × L × α)) : Prop := ∀ e ∈ es, e.1 ∈ vs ∧ e.2.1 ∈ ws

theorem propertyEdges_eq (vs : List L) (hv : vs.Nodup) (es : List (L × L × α)) (hk : LabelsKnown vs vs es) :
    propertyEdges (indexMap vs) es = es.map (byPosition vs vs) := by
  apply List.map_congr_left
  intro e he
  have := hk e he
  simp only [byPosition, lookup_eq_idxOf vs hv _ this.1, lookup_eq_idxOf vs hv _ this.2]

theorem below_byPosition (vs : List L) (es : List (L × L × α)) (hk : LabelsKnown vs vs es) :
    EndpointsBelow vs.length (es.map (byPosition vs vs)) := by
  intro x hx
  obtain ⟨e, he, rfl⟩ := List.mem_map.1 hx
  have := hk e he
  exact ⟨List.idxOf_lt_length_iff.2 this.1, List.idxOf_lt_length_iff.2 this.2⟩

/-- C19 (partial): with distinct vertex labels and edges that mention only vertex labels, `make_property_graph` returns one
list per vertex, and the list at the position of a label holds the positions of the other endpoints and the
properties of the edges leaving it (entering it for `idx = 1`, touching it when undirected), in input order.
Missing for the full C19: edges with unknown labels, for which it is false (`unknown_label_attached_to_vertex_0`). -/
theorem property_graph_partial (vs : List L) (hv : vs.Nodup) (es : List (L × L × α)) (hk : LabelsKnown vs vs es)
    (directed : Bool) (idx : Nat) :
    ∃ g, propertyGraph vs es directed idx = .ok g ∧ g.length = vs.length ∧
      ∀ i, i < vs.length → g[i]? = some (if directed then
        (if idx = 0 then outEdges (es.map (byPosition vs vs)) i else inEdges (es.map (byPosition vs vs)) i)
        else incident (es.map (byPosition vs vs)) i) := by
  obtain ⟨g, h1, h2, h3⟩ := Vov.push_back_fill_rows directed idx (es.map (byPosition vs vs)) (Vov.empty vs.length)
    (by simpa [Vov.empty] using below_byPosition vs es hk)
  refine ⟨g, by rw [propertyGraph, propertyEdges_eq vs hv es hk, h1], by simpa [Vov.empty] using h2, ?_⟩
  intro i hi
  simpa using h3 i [] (by simp [Vov.empty, hi])

/-- C19 (partial), `make_index_graph`: as above, with the position of the input edge as the property. -/
theorem index_graph_partial (vs : List L) (hv : vs.Nodup) (es : List (L × L × α)) (hk : LabelsKnown vs vs es)
    (directed : Bool) (idx : Nat) :
    ∃ g, indexGraph vs es directed idx = .ok g ∧ g.length = vs.length ∧
      ∀ i, i < vs.length → g[i]? = some (
        let numbered := es.zipIdx.map fun p => (vs.idxOf p.1.1, vs.idxOf p.1.2.1, p.2)
        if directed then (if idx = 0 then outEdges numbered i else inEdges numbered i) else incident numbered i) := by
  have he : indexEdges (indexMap vs) es = es.zipIdx.map fun p => (vs.idxOf p.1.1, vs.idxOf p.1.2.1, p.2) := by
    apply List.map_congr_left
    intro p hp
    have := hk p.1 (List.fst_mem_of_mem_zipIdx hp)
    simp only [lookup_eq_idxOf vs hv _ this.1, lookup_eq_idxOf vs hv _ this.2]
  obtain ⟨g, h1, h2, h3⟩ := Vov.push_back_fill_rows directed idx
    (es.zipIdx.map fun p => (vs.idxOf p.1.1, vs.idxOf p.1.2.1, p.2)) (Vov.empty vs.length) (by
      intro x hx
      obtain ⟨p, hp, rfl⟩ := List.mem_map.1 hx
      have := hk p.1 (List.fst_mem_of_mem_zipIdx hp)
      simp only [Vov.empty, List.length_replicate]
      exact ⟨List.idxOf_lt_length_iff.2 this.1, List.idxOf_lt_length_iff.2 this.2⟩)
  refine ⟨g, by rw [indexGraph, he, h1], by simpa [Vov.empty] using h2, ?_⟩
  intro i hi
  simpa using h3 i [] (by simp [Vov.empty, hi])

/-- C19, negated: whatever the vertices and the edges before it, an edge from an unknown label to vertex `v` becomes an edge of vertex
0, the first label. -/
theorem unknown_label_attached_to_vertex_0 (vs : List L) (hv : vs ≠ []) (l v : L) (hl : l ∉ vs) (hm : v ∈ vs) (a : α) :
    ∃ g, propertyGraph vs [(l, v, a)] true 0 = .ok g ∧ ∃ k, g[0]? = some [(k, a)] ∧ vs[k]? = some v := by
  have h0 : 0 < vs.length := List.length_pos_iff.2 hv
  refine ⟨(Vov.empty vs.length).set 0 [(lookup (indexMap vs) v, a)], ?_, lookup (indexMap vs) v, ?_, (lookup_known vs v hm).1⟩
  · simp only [propertyGraph, propertyEdges, List.map_cons, List.map_nil, lookup_unknown vs l hl, Vov.fill,
      List.foldlM_cons, List.foldlM_nil, Vov.fillStep, if_true]
    rw [Vov.emplace_ok (by simpa [Vov.empty] using h0)]
    simp [Vov.empty]
  · simp [Vov.empty, h0]

/-- With no vertices at all such an edge writes out of bounds. -/
theorem unknown_label_no_vertices (l v : L) (a : α) :
    propertyGraph ([] : List L) [(l, v, a)] true 0 = .error .outOfBounds := by
  simp [propertyGraph, propertyEdges, Vov.fill, Vov.fillStep, Vov.empty, Vov.emplace, lookup, indexMap, vget]

/-- When a label is listed twice, its edges go to the last position. -/
example : propertyGraph ["a", "b", "a"] [("a", "b", 1)] true 0 = .ok [[], [], [(1, 1)]] := by decide

example : ["x", "y", "z"].Nodup ∧ LabelsKnown ["x", "y", "z"] ["x", "y", "z"] [("z", "x", 5), ("z", "z", 6)] ∧
    propertyGraph ["x", "y", "z"] [("z", "x", 5), ("z", "z", 6)] true 0 = .ok [[], [], [(0, 5), (2, 6)]] := by
  refine ⟨by decide, by simp [LabelsKnown], by decide⟩

/-- The bipartite edges by position. -/
def pairsByPosition (left right : List L) (es : List (L × L)) : List (Nat × Nat × Unit) :=
  es.map fun e => (left.idxOf e.1, right.idxOf e.2, ())

theorem bipartiteEdges_eq (left right : List L) (hl : left.Nodup) (hr : right.Nodup) (es : List (L × L))
    (hk : ∀ e ∈ es, e.1 ∈ left ∧ e.2 ∈ right) : bipartiteEdges left right es = pairsByPosition left right es := by
  apply List.map_congr_left
  intro e he
  have := hk e he
  rw [lookup_eq_idxOf left hl _ this.1, lookup_eq_idxOf right hr _ this.2]

/-- Directed filling needs only the row endpoint to be in range. -/
theorem fill_directed_rows (idx n : Nat) (es : List (Nat × Nat × α)) (hb : ∀ x ∈ es, EdgeList.rowEnd idx x < n) :
    ∃ g, Vov.fill true idx es (Vov.empty n) = .ok g ∧ g.length = n ∧
      ∀ i, i < n → g[i]? = some (if idx = 0 then outEdges es i else inEdges es i) := by
  obtain ⟨g, h1, h2, h3⟩ := Vov.emplaceAll_ok (Vov.events true idx es) (Vov.empty n) (by
    intro e he
    unfold Vov.events at he
    obtain ⟨x, hx, he⟩ := List.mem_flatMap.1 he
    have := hb x hx
    unfold EdgeList.rowEnd at this
    simp only [Vov.empty, List.length_replicate]
    by_cases hi : idx = 0
    · simp [hi] at he this; subst he; exact this
    · simp [hi] at he this; subst he; exact this)
  refine ⟨g, by rw [Vov.fill_eq, h1], by simpa [Vov.empty] using h2, ?_⟩
  intro i hi
  have := h3 i (by simpa [Vov.empty] using hi)
  rw [this, Vov.outEdges_events]
  simp [Vov.empty]

/-- C20 (partial): with distinct, known labels, `make_bipartite_graph<idx>` returns one neighbourhood per vertex of side
`idx`, with the other-side positions of its edges in order — provided `idx = 0` or both sides have the same number of vertices.
Missing for the full C20: `idx = 1` with sides of different sizes, where it is false (`bipartite_graph_right_side_oob`,
`bipartite_graph_right_side_extra_rows`). -/
theorem bipartite_graph_partial (idx : Nat) (left right : List L) (hl : left.Nodup) (hr : right.Nodup)
    (hidx : idx = 0 ∨ left.length = right.length) (es : List (L × L)) (hk : ∀ e ∈ es, e.1 ∈ left ∧ e.2 ∈ right) :
    ∃ g, bipartiteGraph idx left right es = .ok g ∧ g.length = (if idx = 0 then left else right).length ∧
      ∀ i, i < (if idx = 0 then left else right).length →
        g[i]? = some (if idx = 0 then outEdges (pairsByPosition left right es) i
          else inEdges (pairsByPosition left right es) i) := by
  have hn : left.length = (if idx = 0 then left else right).length := by
    rcases hidx with h | h <;> (try simp [h]); split <;> simp [h]
  obtain ⟨g, h1, h2, h3⟩ := fill_directed_rows idx left.length (pairsByPosition left right es) (by
    intro x hx
    obtain ⟨e, he, rfl⟩ := List.mem_map.1 hx
    have := hk e he
    unfold EdgeList.rowEnd
    split
    · exact List.idxOf_lt_length_iff.2 this.1
    · rename_i hi
      have hlr := hidx.resolve_left hi
      rw [hlr]
      exact List.idxOf_lt_length_iff.2 this.2)
  refine ⟨g, by rw [bipartiteGraph, bipartiteEdges_eq left right hl hr es hk, h1], by omega, ?_⟩
  intro i hi
  exact h3 i (by omega)

/-- C20, negated for `idx = 1`: whenever the position of the right label of some edge is at least the number of left vertices,
building the right-indexed graph writes out of bounds. -/
theorem bipartite_graph_right_side_oob (left right : List L) (hl : left.Nodup) (hr : right.Nodup)
    (es : List (L × L)) (hk : ∀ e ∈ es, e.1 ∈ left ∧ e.2 ∈ right) (e : L × L) (he : e ∈ es)
    (hbig : left.length ≤ right.idxOf e.2) : bipartiteGraph 1 left right es = .error .outOfBounds := by
  rw [bipartiteGraph, bipartiteEdges_eq left right hl hr es hk, Vov.fill_eq]
  apply Vov.emplaceAll_oob
  refine ⟨(right.idxOf e.2, left.idxOf e.1, ()), ?_, by simpa [Vov.empty] using hbig⟩
  simp only [Vov.events, pairsByPosition, List.mem_flatMap, List.mem_map]
  exact ⟨_, ⟨e, he, rfl⟩, by simp [flipEdge]⟩

/-- C20, negated for `idx = 1` with fewer right than left vertices: the graph has as many rows as there are left vertices. -/
theorem bipartite_graph_right_side_extra_rows : ∃ (left right : List Nat) (es : List (Nat × Nat)) (g : Vov Unit),
    left.Nodup ∧ right.Nodup ∧ (∀ e ∈ es, e.1 ∈ left ∧ e.2 ∈ right) ∧
    bipartiteGraph 1 left right es = .ok g ∧ g.length ≠ right.length :=
  ⟨[10, 20], [30], [(20, 30)], [[(1, ())], []], by decide, by decide, by decide, by decide, by decide⟩

/-- C20, the pair builders: both graphs are right and they are transposes of each other: left vertex `i` lists `j` as often as right
vertex `j` lists `i`. -/
theorem bipartite_graphs_correct (left right : List L) (hl : left.Nodup) (hr : right.Nodup)
    (es : List (L × L)) (hk : ∀ e ∈ es, e.1 ∈ left ∧ e.2 ∈ right) :
    ∃ g h, bipartiteGraphs left right es = .ok (g, h) ∧ g.length = left.length ∧ h.length = right.length ∧
      (∀ i, i < left.length → g[i]? = some (outEdges (pairsByPosition left right es) i)) ∧
      (∀ j, j < right.length → h[j]? = some (inEdges (pairsByPosition left right es) j)) ∧
      (∀ (i j : Nat) (ri rj : List (Nat × Unit)), g[i]? = some ri → h[j]? = some rj → (ri.map (·.1)).count j = (rj.map (·.1)).count i) := by
  obtain ⟨g, h1, h2, h3⟩ := fill_directed_rows 0 left.length (pairsByPosition left right es) (by
    intro x hx
    obtain ⟨e, he, rfl⟩ := List.mem_map.1 hx
    exact List.idxOf_lt_length_iff.2 (hk e he).1)
  obtain ⟨h, k1, k2, k3⟩ := fill_directed_rows 1 right.length (pairsByPosition left right es) (by
    intro x hx
    obtain ⟨e, he, rfl⟩ := List.mem_map.1 hx
    exact List.idxOf_lt_length_iff.2 (hk e he).2)
  refine ⟨g, h, ?_, h2, k2, h3, k3, ?_⟩
  · unfold bipartiteGraphs
    rw [bipartiteEdges_eq left right hl hr es hk, h1, res_bind_ok, k1, res_bind_ok]; rfl
  · intro i j ri rj hi hj
    have hi' : i < left.length := by
      rcases Nat.lt_or_ge i g.length with c | c
      · omega
      · rw [List.getElem?_eq_none c] at hi; cases hi
    have hj' : j < right.length := by
      rcases Nat.lt_or_ge j h.length with c | c
      · omega
      · rw [List.getElem?_eq_none c] at hj; cases hj
    rw [h3 i hi'] at hi
    rw [k3 j hj'] at hj
    injection hi with hi; injection hj with hj
    subst hi; subst hj
    simp only [if_true, if_neg (show ¬ (1 : Nat) = 0 by omega)]
    generalize pairsByPosition left right es = ps
    induction ps with
    | nil => rfl
    | cons p ps ih =>
      simp only [outEdges, inEdges] at ih ⊢
      by_cases a : p.1 = i <;> by_cases b : p.2.1 = j <;> simp_all

example : [10, 20].Nodup ∧ [7, 8, 9].Nodup ∧ (∀ e ∈ [(20, 9), (10, 7), (20, 7)], e.1 ∈ [10, 20] ∧ e.2 ∈ [7, 8, 9]) ∧
    bipartiteGraphs [10, 20] [7, 8, 9] [(20, 9), (10, 7), (20, 7)] =
      .ok ([[(0, ())], [(2, ()), (0, ())]], [[(0, ()), (1, ())], [], [(1, ())]]) ∧
    bipartiteGraph 1 [10, 20] [7, 8, 9] [(20, 9), (10, 7), (20, 7)] = .error .outOfBounds := by decide

end Labels

/-! ## C21 -/

variable {α β : Type}

/-- What vertex `i` should list: for each hyperedge `k` of `i`, each member `j ≠ i` of `k`. -/
def overlaps (G : Vov α) (H : Vov β) (i : Nat) : List (Nat × Nat) :=
  (H.getD i []).flatMap fun k => ((G.getD k.1 []).filter fun j => decide (j.1 ≠ i)).map fun j => (j.1, k.1)

theorem outEdges_map_self {γ δ : Type} (i u : Nat) (l : List γ) (f : γ → Nat × δ) :
    outEdges (l.map fun x => (i, f x)) u = if i = u then l.map f else [] := by
  induction l with
  | nil => simp [outEdges]
  | cons x xs ih =>
    simp only [outEdges] at ih ⊢
    by_cases h : i = u <;> simp_all

/-- C21. `join(G, H)` succeeds when the hyperedges listed by `H` are rows of `G` and the members listed by `G` are below the size of
`H`; vertex `i` then lists exactly its overlaps, in order. -/
theorem join_correct (G : Vov α) (H : Vov β) (hH : ∀ r ∈ H, ∀ k ∈ r, k.1 < G.length) :
    ∃ J, join G H = .ok J ∧ J.length = H.length ∧ ∀ i, i < H.length → J[i]? = some (overlaps G H i) := by
  have hrow : (List.range H.length).mapM (fun i => do
      let row ← vget H i
      let ls ← row.mapM (joinEntry G i)
      return ls.flatten : _ → Res (List (Nat × Nat × Nat))) =
      .ok ((List.range H.length).map fun i => (overlaps G H i).map fun p => (i, p)) := by
    apply mapM_ok_of_forall
    intro i hi
    have hi' : i < H.length := by simpa using hi
    rw [vget_of_lt hi', res_bind_ok]
    have : H[i].mapM (joinEntry G i) = .ok (H[i].map fun k =>
        ((G.getD k.1 []).filter fun j => decide (j.1 ≠ i)).map fun j => (i, j.1, k.1)) := by
      apply mapM_ok_of_forall
      intro k hk
      have hk' := hH _ (List.getElem_mem hi') k hk
      simp [joinEntry, vget_of_lt hk', List.getD_eq_getElem?_getD, List.getElem?_eq_getElem hk']
    rw [this, res_bind_ok]
    simp only [overlaps, List.getD_eq_getElem?_getD, List.getElem?_eq_getElem hi', Option.getD_some, res_pure,
      List.map_flatten, List.map_map, List.flatMap_def, Function.comp_def]
  let es := ((List.range H.length).map fun i => (overlaps G H i).map fun p => (i, p)).flatten
  have hb : ∀ x ∈ es, EdgeList.rowEnd 0 x < H.length := by
    intro x hx
    obtain ⟨l, hl, hx⟩ := List.mem_flatten.1 hx
    obtain ⟨i, hi, rfl⟩ := List.mem_map.1 hl
    obtain ⟨p, _, rfl⟩ := List.mem_map.1 hx
    simpa [EdgeList.rowEnd] using hi
  obtain ⟨J, h1, h2, h3⟩ := Labels.fill_directed_rows 0 H.length es hb
  refine ⟨J, ?_, h2, ?_⟩
  · unfold join
    rw [hrow, res_bind_ok, h1]
  · intro i hi
    rw [h3 i hi, if_pos rfl]
    congr 1
    show outEdges ((List.range H.length).map fun i => (overlaps G H i).map fun p => (i, p)).flatten i = _
    have : ∀ n, outEdges ((List.range n).map fun i => (overlaps G H i).map fun p => (i, p)).flatten i =
        if i < n then overlaps G H i else [] := by
      intro n
      induction n with
      | zero => simp [outEdges]
      | succ n ih =>
        rw [List.range_succ, List.map_append, List.flatten_append, Vov.outEdges_append, ih]
        simp only [List.map_cons, List.map_nil, List.flatten_cons, List.flatten_nil, List.append_nil]
        have hm := outEdges_map_self n i (overlaps G H n) (fun p : Nat × Nat => p)
        rw [hm]
        by_cases h1 : n = i
        · subst h1; simp
        · by_cases h2 : i < n
          · simp [h1, h2, Nat.lt_succ_of_lt h2]
          · simp [h1, h2, show ¬ i < n + 1 by omega]
    rw [this, if_pos hi]

/-- C21, with multiplicities: vertex `i` lists `(j, k)` once for each pair of an entry `k` of `H[i]` and an entry `j` of `G[k]`, and
never with `j = i`. -/
theorem overlaps_count (G : Vov α) (H : Vov β) (i j k : Nat) :
    (overlaps G H i).count (j, k) =
      if j = i then 0 else ((H.getD i []).map (·.1)).count k * ((G.getD k []).map (·.1)).count j := by
  unfold overlaps
  generalize H.getD i [] = row
  induction row with
  | nil => simp
  | cons x xs ih =>
    rw [List.flatMap_cons, List.count_append, ih]
    have hx : (((G.getD x.1 []).filter fun y => decide (y.1 ≠ i)).map fun y => (y.1, x.1)).count (j, k) =
        if j = i then 0 else if x.1 = k then ((G.getD x.1 []).map (·.1)).count j else 0 := by
      generalize G.getD x.1 [] = r
      induction r with
      | nil => simp
      | cons y ys ih2 =>
        by_cases h1 : y.1 = i <;> by_cases h2 : y.1 = j <;> by_cases h3 : x.1 = k <;> by_cases h4 : j = i <;>
          simp_all
    rw [hx]
    by_cases h1 : j = i <;> by_cases h2 : x.1 = k <;> simp_all [Nat.add_mul, Nat.add_comm]

/-- An entry of `H` that is not a row of `G` makes `join` read out of bounds. -/
theorem join_reads_out_of_bounds : join ([[(0, ())]] : Vov Unit) ([[(1, ())]] : Vov Unit) = .error .outOfBounds := by
  decide

example : (∀ r ∈ ([[(0, ())], [(0, ()), (1, ())], [(1, ())]] : Vov Unit), ∀ k ∈ r,
      k.1 < ([[(0, ()), (1, ())], [(1, ()), (2, ())]] : Vov Unit).length) ∧
    join ([[(0, ()), (1, ())], [(1, ()), (2, ())]] : Vov Unit) ([[(0, ())], [(0, ()), (1, ())], [(1, ())]] : Vov Unit) =
      .ok [[(1, 0)], [(0, 0), (2, 1)], [(1, 1)]] := by
  refine ⟨by simp, by decide⟩

end NW
