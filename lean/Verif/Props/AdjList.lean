import Verif.Model.AdjList
import Verif.Props.Build
import Mathlib.Order.Lattice
import Mathlib.Tactic.SplitIfs
import Mathlib.Tactic.ByContra

/-!
# C112: adjacency lists that grow
-/

namespace NW.AdjList
open Spec

variable {α : Type}

/-- The number of vertices a graph with `n` vertices has after edges with these sources have been added: enough for every source. -/
def vertexCount (n : Nat) (ps : List (Nat × Nat × α)) : Nat := ps.foldl (fun m p => max m (p.1 + 1)) n

/-- What an adjacency list of `u` shows after the pushes: the targets in the order of the pushes, for `adj_flist` the latest first. -/
def shown (k : Kind) (ps : List (Nat × Nat × α)) (u : Nat) : List (Nat × α) :=
  if k = .flist then (outEdges ps u).reverse else outEdges ps u

theorem vertexCount_le (n : Nat) (ps : List (Nat × Nat × α)) : n ≤ vertexCount n ps ∧ ∀ p ∈ ps, p.1 < vertexCount n ps := by
  induction ps generalizing n with
  | nil => simp [vertexCount]
  | cons p ps ih =>
    have h := ih (max n (p.1 + 1))
    simp only [vertexCount, List.foldl_cons] at h ⊢
    refine ⟨le_trans (le_max_left _ _) h.1, fun x hx => ?_⟩
    rcases List.mem_cons.1 hx with rfl | hx
    · have := h.1; omega
    · exact h.2 x hx

/-- `vertexCount` is the least such number. -/
theorem vertexCount_least (n m : Nat) (ps : List (Nat × Nat × α)) (hn : n ≤ m) (h : ∀ p ∈ ps, p.1 < m) : vertexCount n ps ≤ m := by
  induction ps generalizing n with
  | nil => simpa [vertexCount] using hn
  | cons p ps ih =>
    simp only [vertexCount, List.foldl_cons]
    exact ih _ (by have := h p (by simp); omega) fun x hx => h x (by simp [hx])

theorem grow_length (rows : Vov α) (i : Nat) : (grow rows i).length = max rows.length (i + 1) := by
  simp only [grow, List.length_append, List.length_replicate]; omega

theorem grow_getD (rows : Vov α) (i u : Nat) : (grow rows i).getD u [] = rows.getD u [] := by
  simp only [grow, List.getD_eq_getElem?_getD]
  by_cases h : u < rows.length
  · rw [List.getElem?_append_left h]
  · rw [List.getElem?_append_right (by omega), List.getElem?_eq_none (l := rows) (by omega)]
    by_cases h2 : u - rows.length < i + 1 - rows.length
    · simp [List.getElem?_replicate, h2]
    · rw [List.getElem?_eq_none (by simp; omega)]

theorem pushBack_ok (k : Kind) (w : Nat) (g : Graph α) (i j : Nat) (a : α) :
    ∃ g', pushBack k w g i j a = .ok g' ∧ g'.numEdges = g.numEdges ∧ g'.rows.length = max g.rows.length (i + 1) ∧
      ∀ u, g'.rows.getD u [] = if u = i then put k (g.rows.getD i []) (j % 2 ^ w, a) else g.rows.getD u [] := by
  have hi : i < (grow g.rows i).length := by rw [grow_length]; omega
  refine ⟨⟨(grow g.rows i).set i (put k (grow g.rows i)[i] (j % 2 ^ w, a)), g.numEdges⟩, ?_, rfl, ?_, ?_⟩
  · simp only [pushBack]
    rw [vget_of_lt hi, res_bind_ok, vset_of_lt hi]; rfl
  · simp [grow_length]
  · intro u
    have hgi : (grow g.rows i)[i] = g.rows.getD i [] := by
      rw [← grow_getD g.rows i i, List.getD_eq_getElem?_getD, List.getElem?_eq_getElem hi]; rfl
    by_cases hu : u = i
    · subst hu
      rw [if_pos rfl, ← hgi]
      simp [List.getD_eq_getElem?_getD, List.getElem?_set_self hi]
    · rw [if_neg hu, ← grow_getD g.rows i u]
      simp [List.getD_eq_getElem?_getD, List.getElem?_set_ne (Ne.symm hu)]

theorem outEdges_cons (p : Nat × Nat × α) (ps : List (Nat × Nat × α)) (u : Nat) :
    outEdges (p :: ps) u = (if p.1 = u then [(p.2.1, p.2.2)] else []) ++ outEdges ps u := by
  by_cases h : p.1 = u <;> simp [outEdges, h]

/-- The pushes from any graph. -/
theorem pushAll_ok (k : Kind) (w : Nat) (ps : List (Nat × Nat × α)) (hw : ∀ p ∈ ps, p.2.1 < 2 ^ w) (g : Graph α) :
    ∃ g', pushAll k w ps g = .ok g' ∧ g'.numEdges = g.numEdges ∧ g'.rows.length = vertexCount g.rows.length ps ∧
      ∀ u, g'.rows.getD u [] = if k = .flist then (outEdges ps u).reverse ++ g.rows.getD u [] else g.rows.getD u [] ++ outEdges ps u := by
  induction ps generalizing g with
  | nil => exact ⟨g, rfl, rfl, rfl, fun u => by simp [outEdges]⟩
  | cons p ps ih =>
    obtain ⟨g1, h1, h2, h3, h4⟩ := pushBack_ok k w g p.1 p.2.1 p.2.2
    obtain ⟨g2, k1, k2, k3, k4⟩ := ih (fun x hx => hw x (by simp [hx])) g1
    refine ⟨g2, ?_, by rw [k2, h2], ?_, ?_⟩
    · simp only [pushAll, List.foldlM_cons] at k1 ⊢
      rw [h1, res_bind_ok, k1]
    · rw [k3, h3]; rfl
    · intro u
      rw [k4, h4, outEdges_cons, Nat.mod_eq_of_lt (hw p (by simp))]
      cases k <;> by_cases h : u = p.1 <;> simp [h, put, eq_comm]

/-- C112, the graphs that are built up.  For every number of vertices to start with and every sequence of `push_back(i, j, attributes)` with targets that are
vertex ids, in any order of sources and with gaps: nothing is undefined; the graph has as many vertices as it started with or as the largest source needs;
the list of each vertex is exactly the targets pushed for it with their attributes, in the order of the pushes, or in the opposite order for `adj_flist`. -/
theorem push_back_builds (k : Kind) (w n : Nat) (ps : List (Nat × Nat × α)) (hw : ∀ p ∈ ps, p.2.1 < 2 ^ w) :
    ∃ g, pushAll k w ps (ofSize n) = .ok g ∧ numVertices g = vertexCount n ps ∧ ∀ u, u < numVertices g → g.rows[u]? = some (shown k ps u) := by
  obtain ⟨g, h1, _, h3, h4⟩ := pushAll_ok k w ps hw (ofSize n)
  have h3 : g.rows.length = vertexCount n ps := by simpa [ofSize, Vov.empty] using h3
  refine ⟨g, h1, h3, fun u hu => ?_⟩
  have h := h4 u
  have h0 : (ofSize n : Graph α).rows.getD u [] = [] := by
    simp only [ofSize, Vov.empty, List.getD_eq_getElem?_getD, List.getElem?_replicate]; split <;> rfl
  rw [h0, List.append_nil, List.nil_append] at h
  have hu : u < g.rows.length := hu
  rw [List.getElem?_eq_getElem hu, shown, ← h, List.getD_eq_getElem?_getD, List.getElem?_eq_getElem hu]
  rfl

example : (∀ p ∈ [(3, 0, 'a'), (1, 2, 'b'), (3, 1, 'c')], p.2.1 < 2 ^ 32) ∧
    (pushAll .list 32 [(3, 0, 'a'), (1, 2, 'b'), (3, 1, 'c')] (ofSize 2)).map (·.rows) = .ok [[], [(2, 'b')], [], [(0, 'a'), (1, 'c')]] ∧
    (pushAll .flist 32 [(3, 0, 'a'), (1, 2, 'b'), (3, 1, 'c')] (ofSize 2)).map (·.rows) = .ok [[], [(2, 'b')], [], [(1, 'c'), (0, 'a')]] ∧
    vertexCount 2 [(3, 0, 'a'), (1, 2, 'b'), (3, 1, 'c')] = 4 := by decide

/-- Whether the result is a graph, in which every neighbour is a vertex: exactly if no target is above all the sources and the vertices there were at first. -/
theorem push_back_in_range_iff (k : Kind) (w n : Nat) (ps : List (Nat × Nat × α)) (hw : ∀ p ∈ ps, p.2.1 < 2 ^ w) (g : Graph α)
    (hg : pushAll k w ps (ofSize n) = .ok g) :
    (∀ (u : Nat) (r : List (Nat × α)), g.rows[u]? = some r → ∀ x ∈ r, x.1 < numVertices g) ↔ ∀ p ∈ ps, p.2.1 < vertexCount n ps := by
  obtain ⟨g', h1, h2, h3⟩ := push_back_builds k w n ps hw
  rw [hg] at h1
  cases h1
  have hm : ∀ u x, x ∈ shown k ps u ↔ ∃ p ∈ ps, p.1 = u ∧ (p.2.1, p.2.2) = x := by
    intro u x
    cases k <;> simp [shown, outEdges] <;> grind
  constructor
  · intro h p hp
    have hu : p.1 < numVertices g := by rw [h2]; exact (vertexCount_le n ps).2 p hp
    have := h p.1 _ (h3 _ hu) (p.2.1, p.2.2) ((hm _ _).2 ⟨p, hp, rfl, rfl⟩)
    rwa [h2] at this
  · intro h u r hr x hx
    have hu : u < numVertices g := by
      by_contra hc
      rw [List.getElem?_eq_none (Nat.le_of_not_lt hc)] at hr
      cases hr
    rw [h3 u hu] at hr
    cases hr
    obtain ⟨p, hp, _, rfl⟩ := (hm u x).1 hx
    rw [h2]
    exact h p hp

/-- The converse of what one expects: a single `push_back(0, 5)` gives a graph with one vertex that has a neighbour which is not a vertex, and searching it reads out of bounds. -/
theorem target_not_a_vertex (k : Kind) :
    ∃ g : Graph Unit, pushAll k 32 [(0, 5, ())] (ofSize 0) = .ok g ∧ numVertices g = 1 ∧ Bfs.Run (2 ^ 32 - 1) g.rows 0 (.error .outOfBounds) := by
  refine ⟨⟨[[(5, ())]], none⟩, by cases k <;> rfl, rfl, ?_⟩
  exact Loop.fault rfl

/-- C112, `num_edges()`: after construction from a number of vertices and any pushes it reads a variable that was never set. -/
theorem num_edges_uninitialised (k : Kind) (w n : Nat) (ps : List (Nat × Nat × α)) (hw : ∀ p ∈ ps, p.2.1 < 2 ^ w) :
    ∃ g, pushAll k w ps (ofSize n) = .ok g ∧ numEdges g = .error .uninitialised := by
  obtain ⟨g, h1, h2, _⟩ := pushAll_ok k w ps hw (ofSize n)
  refine ⟨g, h1, ?_⟩
  rw [numEdges, h2]; rfl

/-- A target that does not fit is silently replaced: vertex `2 ^ w` becomes vertex 0. -/
theorem target_truncated (k : Kind) (w : Nat) (a : α) :
    ∃ g : Graph α, pushAll k w [(0, 2 ^ w, a)] (ofSize 1) = .ok g ∧ g.rows[0]? = some [(0, a)] := by
  obtain ⟨g, h1, _, h3, h4⟩ := pushBack_ok k w (ofSize 1 : Graph α) 0 (2 ^ w) a
  refine ⟨g, by simp [pushAll, h1], ?_⟩
  have h := h4 0
  have hl : 0 < g.rows.length := by rw [h3]; omega
  rw [List.getD_eq_getElem?_getD, List.getElem?_eq_getElem hl] at h
  rw [List.getElem?_eq_getElem hl]
  simp only [Option.getD_some, if_true] at h
  rw [h]
  cases k <;> simp [put, ofSize, Vov.empty]

/-! ## From an edge list -/

/-- The pushes made for an edge list. -/
def pushes (directed : Bool) (es : List (Nat × Nat × α)) : List (Nat × Nat × α) :=
  es.flatMap fun e => if directed then [e] else [e, flipEdge e]

theorem fill_eq_pushAll (k : Kind) (w : Nat) (directed : Bool) (es : List (Nat × Nat × α)) (g : Graph α) (m : Nat) :
    es.foldlM (fillStep k w directed) (g, m) =
      (pushAll k w (pushes directed es) g).bind fun g' => .ok (g', m + if directed then es.length else 2 * es.length) := by
  induction es generalizing g m with
  | nil => cases directed <;> rfl
  | cons e es ih =>
    have hp : pushes directed (e :: es) = (if directed then [e] else [e, flipEdge e]) ++ pushes directed es := rfl
    obtain ⟨g1, h1, _⟩ := pushBack_ok k w g e.1 e.2.1 e.2.2
    rw [List.foldlM_cons, hp, pushAll, List.foldlM_append]
    cases directed
    · obtain ⟨g2, h2, _⟩ := pushBack_ok k w g1 e.2.1 e.1 e.2.2
      simp only [fillStep, h1, h2, res_bind_ok, Bool.false_eq_true, if_false, List.foldlM_cons, List.foldlM_nil, flipEdge, res_pure]
      rw [ih]
      simp only [pushAll, Bool.false_eq_true, if_false, List.length_cons]
      congr 1; funext g'; congr 2; omega
    · simp only [fillStep, h1, res_bind_ok, if_true, List.foldlM_cons, List.foldlM_nil, res_pure]
      rw [ih]
      simp only [pushAll, if_true, List.length_cons]
      congr 1; funext g'; congr 2; omega

theorem pushes_eq_events (directed : Bool) (es : List (Nat × Nat × α)) : pushes directed es = Vov.events directed 0 es := by
  simp [pushes, Vov.events]

theorem sum_map_add (l : List Nat) (f g : Nat → Nat) : (l.map fun u => f u + g u).sum = (l.map f).sum + (l.map g).sum := by
  induction l with
  | nil => rfl
  | cons x l ih => simp only [List.map_cons, List.sum_cons, ih]; omega

theorem sum_indicator (i m : Nat) : ((List.range m).map fun u => if i = u then 1 else 0).sum = if i < m then 1 else 0 := by
  induction m with
  | zero => simp
  | succ m ih =>
    rw [List.range_succ, List.map_append, List.sum_append, ih]
    simp only [List.map_cons, List.map_nil, List.sum_cons, List.sum_nil]
    split_ifs <;> omega

/-- The lists together have one entry for each push. -/
theorem sum_rows {n : Nat} (ps : List (Nat × Nat × α)) (h : ∀ p ∈ ps, p.1 < n) :
    (((List.range n).map (outEdges ps)).map List.length).sum = ps.length := by
  rw [List.map_map]
  induction ps with
  | nil =>
    have : ∀ l : List Nat, (l.map (List.length ∘ outEdges ([] : List (Nat × Nat × α)))).sum = 0 := by
      intro l
      induction l with
      | nil => rfl
      | cons x l ih => rw [List.map_cons, List.sum_cons, ih]; rfl
    exact this _
  | cons p ps ih =>
    have hl : (List.length ∘ outEdges (p :: ps)) = fun u => (if p.1 = u then 1 else 0) + (List.length ∘ outEdges ps) u := by
      funext u
      simp only [Function.comp_apply, outEdges_cons, List.length_append]
      split <;> simp
    rw [hl, sum_map_add, sum_indicator, if_pos (h p (by simp)), ih fun x hx => h x (by simp [hx]), List.length_cons]
    omega

/-- C112, construction from an edge list (`adj_list`, `vov`).  For every edge list whose endpoints are below its number of vertices: the graph has that many vertices; the list of `u` is the targets
of the edges leaving `u` (directed), or the other endpoints of the edges touching `u` (undirected), in order and with their attributes; `num_edges()` is the number of entries. -/
theorem of_edge_list_correct (k : Kind) (hk : k ≠ .flist) (w : Nat) (directed : Bool) (n : Nat) (hn : n ≤ 2 ^ w) (es : List (Nat × Nat × α)) (hb : EndpointsBelow n es) :
    ∃ g, ofEdgeList k w directed n es = .ok g ∧ numVertices g = n ∧ numEdges g = .ok (g.rows.map List.length).sum ∧
      numEdges g = .ok (if directed then es.length else 2 * es.length) ∧
      ∀ u, u < n → g.rows[u]? = some (if directed then outEdges es u else incident es u) := by
  have hp : ∀ p ∈ pushes directed es, p.1 < n ∧ p.2.1 < n := by
    intro p hp
    obtain ⟨e, he, hpe⟩ := List.mem_flatMap.1 hp
    have := hb e he
    cases directed <;> simp at hpe
    · rcases hpe with rfl | rfl
      · exact this
      · exact this.symm
    · subst hpe; exact this
  have hw : ∀ p ∈ pushes directed es, p.2.1 < 2 ^ w := fun p h => lt_of_lt_of_le (hp p h).2 hn
  obtain ⟨g, h1, h2, h3⟩ := push_back_builds k w n (pushes directed es) hw
  have hc : vertexCount n (pushes directed es) = n :=
    le_antisymm (vertexCount_least n n _ le_rfl fun p h => (hp p h).1) (vertexCount_le n _).1
  have hg : g.rows.length = n := by rw [← hc, ← h2]; rfl
  have hrow : ∀ u, u < n → g.rows[u]? = some (if directed then outEdges es u else incident es u) := by
    intro u hu
    rw [h3 u (by rw [h2, hc]; exact hu), shown, if_neg hk, pushes_eq_events, Vov.outEdges_events]
    simp
  have hsum : (g.rows.map List.length).sum = if directed then es.length else 2 * es.length := by
    have hrows : g.rows = (List.range n).map (outEdges (pushes directed es)) := by
      apply List.ext_getElem? ; intro u
      by_cases hu : u < n
      · rw [h3 u (by rw [h2, hc]; exact hu), shown, if_neg hk]; simp [hu]
      · rw [List.getElem?_eq_none (by omega), List.getElem?_eq_none (by simp; omega)]
    rw [hrows, sum_rows _ fun p h => (hp p h).1]
    clear hrows hrow h3 h2 h1 hw hp hc
    induction es with
    | nil => cases directed <;> rfl
    | cons e es ih =>
      have ih := ih fun x hx => hb x (by simp [hx])
      have : pushes directed (e :: es) = (if directed then [e] else [e, flipEdge e]) ++ pushes directed es := rfl
      rw [this, List.length_append, ih]
      cases directed <;> simp <;> omega
  refine ⟨{ g with numEdges := some (if directed then es.length else 2 * es.length) }, ?_, hg, ?_, rfl, hrow⟩
  · rw [ofEdgeList, fill_eq_pushAll, h1]
    cases directed <;> simp [Except.bind, bind, pure, Except.pure]
  · rw [hsum]; rfl

example : EndpointsBelow 3 [(2, 0, 'a'), (1, 1, 'b')] ∧
    (ofEdgeList .list 32 false 3 [(2, 0, 'a'), (1, 1, 'b')]).map (fun g => (g.rows, g.numEdges)) = .ok ([[(2, 'a')], [(1, 'b'), (1, 'b')], [(0, 'a')]], some 4) := by
  refine ⟨by simp [EndpointsBelow], by decide⟩

/-- After a push, `num_edges()` still tells the number of edges of the edge list. -/
theorem num_edges_stale (k : Kind) (hk : k ≠ .flist) (w : Nat) (directed : Bool) (n : Nat) (hn : n ≤ 2 ^ w) (es : List (Nat × Nat × α)) (hb : EndpointsBelow n es)
    (p : Nat × Nat × α) (hp : p.2.1 < 2 ^ w) :
    ∃ g g', ofEdgeList k w directed n es = .ok g ∧ pushAll k w [p] g = .ok g' ∧ numEdges g' = numEdges g ∧
      (g'.rows.getD p.1 []).length = (g.rows.getD p.1 []).length + 1 := by
  obtain ⟨g, h1, _⟩ := of_edge_list_correct k hk w directed n hn es hb
  obtain ⟨g', k1, k2, _, k4⟩ := pushAll_ok k w [p] (by simpa using hp) g
  refine ⟨g, g', h1, k1, by rw [numEdges, numEdges, k2], ?_⟩
  rw [k4, if_neg hk]
  simp [outEdges]

end NW.AdjList
