import Verif.Model.Build
import Verif.Props.CsrReorder

/-!
# C15–C21: vector-of-vector graphs, edge list clean-up, relabelling, labelled data, join
-/

namespace NW
open Spec

/-! ## C15 -/

namespace Vov
variable {α : Type}

theorem emplace_ok {adj : Vov α} {u : Nat} (h : u < adj.length) (v : Nat) (a : α) :
    adj.emplace u v a = .ok (adj.set u (adj[u] ++ [(v, a)])) := by
  simp [emplace, vget_of_lt h, vset_of_lt h]

/-- A sequence of appends. -/
def emplaceAll (evs : List (Nat × Nat × α)) (adj : Vov α) : Res (Vov α) :=
  evs.foldlM (fun adj e => emplace adj e.1 e.2.1 e.2.2) adj

theorem emplaceAll_ok (evs : List (Nat × Nat × α)) (adj : Vov α) (h : ∀ e ∈ evs, e.1 < adj.length) :
    ∃ adj', emplaceAll evs adj = .ok adj' ∧ adj'.length = adj.length ∧
      ∀ u (hu : u < adj.length), adj'[u]? = some (adj[u] ++ outEdges evs u) := by
  induction evs generalizing adj with
  | nil => exact ⟨adj, rfl, rfl, fun u hu => by simp [outEdges, hu]⟩
  | cons e es ih =>
    have he := h e (by simp)
    obtain ⟨adj', h1, h2, h3⟩ := ih (adj.set e.1 (adj[e.1] ++ [(e.2.1, e.2.2)]))
      (fun x hx => by simpa using h x (by simp [hx]))
    refine ⟨adj', ?_, by simpa using h2, ?_⟩
    · unfold emplaceAll at h1 ⊢
      rw [List.foldlM_cons, emplace_ok he, res_bind_ok, h1]
    · intro u hu
      rw [h3 u (by simpa using hu)]
      by_cases c : e.1 = u
      · subst c; simp [outEdges]
      · rw [List.getElem_set_ne c]; simp [outEdges, c]

theorem emplaceAll_oob (evs : List (Nat × Nat × α)) (adj : Vov α) (h : ∃ e ∈ evs, adj.length ≤ e.1) :
    emplaceAll evs adj = .error .outOfBounds := by
  induction evs generalizing adj with
  | nil => simp at h
  | cons e es ih =>
    unfold emplaceAll at ih ⊢
    rw [List.foldlM_cons]
    by_cases he : e.1 < adj.length
    · rw [emplace_ok he, res_bind_ok]
      apply ih
      obtain ⟨x, hx, hl⟩ := h
      rcases List.mem_cons.1 hx with rfl | hx
      · omega
      · exact ⟨x, hx, by simpa using hl⟩
    · simp [emplace, vget_of_ge (Nat.le_of_not_lt he)]

/-- The appends done by `push_back_fill`. -/
def events (directed : Bool) (idx : Nat) (es : List (Nat × Nat × α)) : List (Nat × Nat × α) :=
  es.flatMap fun e =>
    if idx = 0 then (if directed then [e] else [e, flipEdge e]) else (if directed then [flipEdge e] else [flipEdge e, e])

theorem fill_eq (directed : Bool) (idx : Nat) (es : List (Nat × Nat × α)) (adj : Vov α) :
    fill directed idx es adj = emplaceAll (events directed idx es) adj := by
  induction es generalizing adj with
  | nil => rfl
  | cons e es ih =>
    have hs : ∀ (evs : List (Nat × Nat × α)), fillStep directed idx adj e = emplaceAll evs adj →
        fill directed idx (e :: es) adj = emplaceAll (evs ++ events directed idx es) adj := by
      intro evs h
      unfold fill emplaceAll at *
      rw [List.foldlM_cons, List.foldlM_append, h]
      congr 1
      funext a
      exact ih a
    have hev : events directed idx (e :: es) = (if idx = 0 then (if directed then [e] else [e, flipEdge e])
        else (if directed then [flipEdge e] else [flipEdge e, e])) ++ events directed idx es := by
      simp [events]
    rw [hev]
    apply hs
    unfold fillStep emplaceAll
    by_cases hi : idx = 0 <;> cases directed <;> simp [hi, List.foldlM_cons, flipEdge, res_bind_self]

theorem outEdges_append (es fs : List (Nat × Nat × α)) (u : Nat) :
    outEdges (es ++ fs) u = outEdges es u ++ outEdges fs u := by simp [outEdges]

theorem outEdges_events (directed : Bool) (idx : Nat) (es : List (Nat × Nat × α)) (u : Nat) :
    outEdges (events directed idx es) u =
      if directed then (if idx = 0 then outEdges es u else inEdges es u) else incident es u := by
  induction es with
  | nil => cases directed <;> simp [events, outEdges, inEdges, incident]
  | cons e es ih =>
    have hev : events directed idx (e :: es) = (if idx = 0 then (if directed then [e] else [e, flipEdge e])
        else (if directed then [flipEdge e] else [flipEdge e, e])) ++ events directed idx es := by
      simp [events]
    rw [hev, outEdges_append, ih]
    obtain ⟨x, y, a⟩ := e
    by_cases hi : idx = 0 <;> cases directed <;> by_cases h1 : x = u <;> by_cases h2 : y = u <;>
      simp [hi, h1, h2, outEdges, inEdges, incident, flipEdge]

/-- C15. `push_back_fill(edges, adj, directed, idx)` appends to the list of each vertex `u`, in edge order, exactly the
targets of the edges leaving `u` (directed, `idx = 0`), the sources of the edges entering `u` (directed, `idx = 1`), or the
other endpoints of the edges touching `u` (undirected), with their properties.  Nothing else changes. -/
theorem push_back_fill_rows (directed : Bool) (idx : Nat) (es : List (Nat × Nat × α)) (adj : Vov α)
    (hb : EndpointsBelow adj.length es) :
    ∃ adj', fill directed idx es adj = .ok adj' ∧ adj'.length = adj.length ∧
      ∀ u r, adj[u]? = some r → adj'[u]? = some (r ++
        if directed then (if idx = 0 then outEdges es u else inEdges es u) else incident es u) := by
  have hev : ∀ e ∈ events directed idx es, e.1 < adj.length := by
    intro e he
    unfold events at he
    rw [List.mem_flatMap] at he
    obtain ⟨x, hx, he⟩ := he
    have := hb x hx
    by_cases hi : idx = 0 <;> cases directed <;> simp [hi] at he
    · rcases he with rfl | rfl <;> simp [flipEdge] <;> omega
    · subst he; omega
    · rcases he with rfl | rfl <;> simp [flipEdge] <;> omega
    · subst he; simp [flipEdge]; omega
  obtain ⟨adj', h1, h2, h3⟩ := emplaceAll_ok _ adj hev
  refine ⟨adj', by rw [fill_eq, h1], h2, ?_⟩
  intro u r hr
  have hu : u < adj.length := by
    rcases Nat.lt_or_ge u adj.length with c | c
    · exact c
    · rw [List.getElem?_eq_none c] at hr; cases hr
  rw [List.getElem?_eq_getElem hu] at hr
  injection hr with hr
  rw [h3 u hu, hr, outEdges_events]

theorem pushBack_eq {adj : Vov α} {i : Nat} (h : i < adj.length) (v : Nat) (a : α) :
    adj.pushBack i v a = adj.emplace i v a := by
  simp [pushBack, show i + 1 - adj.length = 0 by omega]

theorem emplace_length {adj adj' : Vov α} {u v : Nat} {a : α} (h : adj.emplace u v a = .ok adj') :
    adj'.length = adj.length := by
  by_cases hu : u < adj.length
  · rw [emplace_ok hu] at h; cases h; simp
  · simp [emplace, vget_of_ge (Nat.le_of_not_lt hu)] at h

/-- C15 for `index_vov(el)`: built from an edge list, the vector of vectors has `num_vertices` rows; row `u` is
the edges leaving `u` (directed list) or touching `u` (undirected list) in order; and the stored number of edges is the number
of entries. -/
theorem vov_of_edge_list (directed : Bool) (n : Nat) (es : List (Nat × Nat × α)) (hb : EndpointsBelow n es) :
    ∃ adj : Vov α, fillAdjList directed es (empty n) = .ok (adj, if directed then es.length else 2 * es.length) ∧
      adj.length = n ∧ ∀ u, u < n → adj[u]? = some (if directed then outEdges es u else incident es u) := by
  suffices H : ∀ (es : List (Nat × Nat × α)) (adj : Vov α) (k : Nat), EndpointsBelow adj.length es →
      es.foldlM (adjListStep directed) (adj, k) =
      (fill directed 0 es adj).bind fun a => .ok (a, k + if directed then es.length else 2 * es.length) by
    obtain ⟨adj, h1, h2, h3⟩ := push_back_fill_rows directed 0 es (empty n : Vov α) (by simpa [empty] using hb)
    refine ⟨adj, ?_, by simpa [empty] using h2, ?_⟩
    · unfold fillAdjList
      rw [H es _ 0 (by simpa [empty] using hb), h1]
      simp [Except.bind]
    · intro u hu
      have := h3 u [] (by simp [empty, hu])
      simpa using this
  intro es
  induction es with
  | nil => intro adj k _; cases directed <;> simp [fill, Except.bind, pure, Except.pure]
  | cons e es ih =>
    intro adj k hb
    have he := hb e (by simp)
    have hstep : ∃ a', fillStep directed 0 adj e = .ok a' ∧ a'.length = adj.length ∧
        adjListStep directed (adj, k) e = .ok (a', k + if directed then 1 else 2) := by
      unfold fillStep adjListStep
      rw [if_pos rfl, pushBack_eq he.1, emplace_ok he.1]
      simp only [res_bind_ok]
      cases directed
      · simp only [Bool.false_eq_true, if_false]
        rw [pushBack_eq (by simpa using he.2), emplace_ok (by simpa using he.2)]
        exact ⟨_, rfl, by simp, rfl⟩
      · exact ⟨_, rfl, by simp, rfl⟩
    obtain ⟨a', h1, h2, h3⟩ := hstep
    unfold fill
    rw [List.foldlM_cons, List.foldlM_cons, h1, h3, res_bind_ok, res_bind_ok]
    have := ih a' (k + if directed then 1 else 2) (fun x hx => by rw [h2]; exact hb x (by simp [hx]))
    have hk : (k + if directed then 1 else 2) + (if directed then es.length else 2 * es.length) =
        k + if directed then (e :: es).length else 2 * (e :: es).length := by
      cases directed <;> simp <;> omega
    rw [this, hk]
    rfl

example : EndpointsBelow 3 [(2, 0, 'a'), (1, 1, 'b'), (2, 1, 'c')] ∧
    Vov.fill false 0 [(2, 0, 'a'), (1, 1, 'b'), (2, 1, 'c')] (empty 3) =
      .ok [[(2, 'a')], [(1, 'b'), (1, 'b'), (2, 'c')], [(0, 'a'), (1, 'c')]] := by
  refine ⟨by simp [EndpointsBelow], by decide⟩

end Vov

/-! ## C16, C17 -/

namespace EdgeList
variable {α : Type}

/-- The endpoints of an edge. -/
def ends (x : Nat × Nat × α) : Nat × Nat := (x.1, x.2.1)

/-- Lexicographic order on endpoints: the order `uniq` asks for. -/
def LexLe (x y : Nat × Nat × α) : Prop := x.1 < y.1 ∨ (x.1 = y.1 ∧ x.2.1 ≤ y.2.1)

theorem withContents_contents (el : EdgeList α) (es : List (Nat × Nat × α)) :
    (el.withContents es).contents = es ∧ (el.withContents es).Wf ∧ (el.withContents es).numVertices = el.numVertices := by
  refine ⟨?_, ⟨by simp [withContents], by simp [withContents]⟩, rfl⟩
  unfold contents withContents
  apply List.ext_getElem
  · simp
  · intro i h1 h2; simp

theorem uniqueGo_spec (x : Nat × Nat × α) (xs : List (Nat × Nat × α)) (hs : (x :: xs).Pairwise LexLe) :
    (uniqueGo samePair x xs).Sublist (x :: xs) ∧
    (uniqueGo samePair x xs).Pairwise (fun a b => LexLe a b ∧ ends a ≠ ends b) ∧
    (∀ y ∈ x :: xs, ∃ z ∈ uniqueGo samePair x xs, ends z = ends y) ∧
    (∀ z ∈ uniqueGo samePair x xs, (x :: xs).find? (fun y => decide (ends y = ends z)) = some z) := by
  induction xs generalizing x with
  | nil => simp [uniqueGo]
  | cons y ys ih =>
    rw [List.pairwise_cons] at hs
    obtain ⟨hx, hys⟩ := hs
    by_cases hp : samePair x y = true
    · have hxy : ends x = ends y := by simpa [samePair, ends] using hp
      have hs' : (x :: ys).Pairwise LexLe :=
        List.pairwise_cons.2 ⟨fun z hz => hx z (by simp [hz]), (List.pairwise_cons.1 hys).2⟩
      obtain ⟨h1, h2, h3, h4⟩ := ih x hs'
      unfold uniqueGo
      rw [if_pos hp]
      refine ⟨h1.trans (by simp), h2, ?_, ?_⟩
      · intro z hz
        rcases List.mem_cons.1 hz with rfl | hz
        · exact h3 _ (by simp)
        · rcases List.mem_cons.1 hz with rfl | hz
          · obtain ⟨w, hw, he⟩ := h3 x (by simp)
            exact ⟨w, hw, by rw [he, hxy]⟩
          · exact h3 z (by simp [hz])
      · intro z hz
        have := h4 z hz
        rw [List.find?_cons] at this ⊢
        by_cases c : ends x = ends z
        · simpa [c] using this
        · have c' : ¬ ends y = ends z := by rw [← hxy]; exact c
          simp only [c, decide_false] at this ⊢
          rw [List.find?_cons]
          simpa [c'] using this
    · have hxy : ends x ≠ ends y := by
        intro h; apply hp; simpa [samePair, ends] using h
      obtain ⟨h1, h2, h3, h4⟩ := ih y hys
      unfold uniqueGo
      rw [if_neg hp]
      have hsep : ∀ z ∈ y :: ys, LexLe x z ∧ ends x ≠ ends z := by
        intro z hz
        refine ⟨hx z hz, ?_⟩
        have hxy' := hx y (by simp)
        intro he
        rcases List.mem_cons.1 hz with rfl | hz'
        · exact hxy he
        · have hyz := (List.pairwise_cons.1 hys).1 z hz'
          apply hxy
          simp only [ends, Prod.mk.injEq] at he ⊢
          simp only [LexLe] at hxy' hyz
          omega
      refine ⟨h1.cons_cons _, ?_, ?_, ?_⟩
      · rw [List.pairwise_cons]
        exact ⟨fun z hz => hsep z (h1.subset hz), h2⟩
      · intro z hz
        rcases List.mem_cons.1 hz with rfl | hz
        · exact ⟨z, by simp, rfl⟩
        · obtain ⟨w, hw, he⟩ := h3 z hz
          exact ⟨w, by simp [hw], he⟩
      · intro z hz
        rcases List.mem_cons.1 hz with rfl | hz
        · simp
        · rw [List.find?_cons]
          have := (hsep z (h1.subset hz)).2
          simp only [this, decide_false]
          exact h4 z hz

/-- C16, `uniq`.  On an edge list sorted by (source, target) the result is a sub-sequence of the list, still sorted, with no
endpoint pair twice; every endpoint pair of the list is still there, represented by its first edge. -/
theorem uniq_correct (el : EdgeList α) (hs : el.contents.Pairwise LexLe) :
    (el.uniq.contents).Sublist el.contents ∧
    (el.uniq.contents).Pairwise (fun a b => LexLe a b ∧ ends a ≠ ends b) ∧
    (∀ y ∈ el.contents, ∃ z ∈ el.uniq.contents, ends z = ends y) ∧
    (∀ z ∈ el.uniq.contents, el.contents.find? (fun y => decide (ends y = ends z)) = some z) ∧
    el.uniq.numVertices = el.numVertices := by
  obtain ⟨h1, _, h2⟩ := withContents_contents el (unique samePair el.edges)
  have hu : el.uniq.contents = unique samePair el.contents := h1
  rw [hu]
  cases hc : el.contents with
  | nil => exact ⟨by simp [unique], by simp [unique], by simp, by simp [unique], h2⟩
  | cons x xs =>
    rw [hc] at hs
    obtain ⟨a, b, c, d⟩ := uniqueGo_spec x xs hs
    exact ⟨a, b, c, d, h2⟩

/-- C16, `remove_self_loops`.  The result is the sub-sequence of the edges with different endpoints. -/
theorem remove_self_loops_correct (el : EdgeList α) :
    el.removeSelfLoops.contents.Sublist el.contents ∧ (∀ x ∈ el.removeSelfLoops.contents, x.1 ≠ x.2.1) ∧
    el.removeSelfLoops.contents = el.contents.filter (fun x => decide (x.1 ≠ x.2.1)) ∧
    el.removeSelfLoops.numVertices = el.numVertices := by
  obtain ⟨h1, _, h2⟩ := withContents_contents el (removeIf (fun x => decide (x.1 = x.2.1)) el.edges)
  have hf : ∀ l : List (Nat × Nat × α), removeIf (fun x => decide (x.1 = x.2.1)) l =
      l.filter (fun x => decide (x.1 ≠ x.2.1)) := by
    intro l
    induction l with
    | nil => rfl
    | cons x xs ih =>
      by_cases c : x.1 = x.2.1 <;> simp [removeIf, c, ih]
  have hu : el.removeSelfLoops.contents = el.contents.filter (fun x => decide (x.1 ≠ x.2.1)) := by
    rw [← hf]; exact h1
  rw [hu]
  refine ⟨List.filter_sublist, ?_, rfl, h2⟩
  intro x hx
  simpa using (List.mem_filter.1 hx).2

example : let el : EdgeList Nat := ⟨3, false, [0, 0, 0, 1, 2], [1, 1, 2, 1, 0], [10, 11, 12, 13, 14]⟩
    el.contents.Pairwise LexLe ∧ el.uniq.contents = [(0, 1, 10), (0, 2, 12), (1, 1, 13), (2, 0, 14)] ∧
      el.removeSelfLoops.contents = [(0, 1, 10), (0, 1, 11), (0, 2, 12), (2, 0, 14)] := by
  refine ⟨by simp [contents, LexLe], by decide, by decide⟩

/-- The endpoint that indexes rows, and the other one. -/
def rowEnd (idx : Nat) (x : Nat × Nat × α) : Nat := if idx = 0 then x.1 else x.2.1
def otherEnd (idx : Nat) (x : Nat × Nat × α) : Nat := if idx = 0 then x.2.1 else x.1

/-- C17. After `swap_to_triangular<idx, cessor>` every edge is oriented: seen from endpoint `idx`, the other endpoint is not
larger (predecessor) or not smaller (successor).  Each position still holds an edge between the same two endpoints with
the same attributes. -/
theorem swap_to_triangular_correct (idx : Nat) (hidx : idx < 2) (c : Csr.Succession) (el : EdgeList α) :
    (el.swapToTriangular idx c).contents.length = el.contents.length ∧
    (el.swapToTriangular idx c).numVertices = el.numVertices ∧
    ∀ (k : Nat) (x y : Nat × Nat × α), el.contents[k]? = some x → (el.swapToTriangular idx c).contents[k]? = some y →
      (c = .predecessor → otherEnd idx y ≤ rowEnd idx y) ∧ (c = .successor → rowEnd idx y ≤ otherEnd idx y) ∧
      (y = x ∨ y = flipEdge x) := by
  obtain ⟨h1, _, h2⟩ := withContents_contents el (el.edges.map (swapStep idx c))
  have hu : (el.swapToTriangular idx c).contents = el.contents.map (swapStep idx c) := h1
  rw [hu]
  refine ⟨by simp, h2, ?_⟩
  intro k x y hx hy
  rw [List.getElem?_map, hx] at hy
  simp only [Option.map_some, Option.some.injEq] at hy
  subst hy
  have : idx = 0 ∨ idx = 1 := by omega
  obtain ⟨i, j, a⟩ := x
  rcases this with rfl | rfl <;> cases c <;> simp only [swapStep, rowEnd, otherEnd, flipEdge] <;> split <;>
    simp_all <;> (try split) <;> simp_all <;> omega

example : ((⟨3, false, [0, 2, 1], [1, 0, 1], [7, 8, 9]⟩ : EdgeList Nat).swapToTriangular 0 .predecessor).contents =
    [(1, 0, 7), (2, 0, 8), (1, 1, 9)] := by decide

end EdgeList
end NW
