import Verif.Lemmas.Apb
import Verif.Props.Ranges
import Verif.Spec.Matrix
import Mathlib.Algebra.BigOperators.Ring.List
import Mathlib.Algebra.Ring.Defs

/-! # C127, C128: the abstraction penalty benchmarks -/

namespace NW.Apb
open Spec Ranges

variable {α S R : Type}

/-! ## C127: all the ways to write the loop do the same -/

/-- The body, executed for every edge, the sources ascending and the edges of a source in their order. -/
def forEdges (body : S → Nat → Nat × α → Res S) (rows : Nat → List (Nat × α)) (n : Nat) (s : S) : Res S :=
  (rowEdges rows 0 n).foldlM (fun s e => body s e.1 e.2) s

theorem forEdges_eq (body : S → Nat → Nat × α → Res S) (rows : Nat → List (Nat × α)) (n : Nat) (s : S) :
    forEdges body rows n s = ((List.range n).flatMap fun u => (rows u).map fun x => (u, x)).foldlM (fun s e => body s e.1 e.2) s := by
  unfold forEdges rowEdges
  rw [Nat.sub_zero, List.range_eq_range']

/-- The loop on the arrays and the loop over `graph[i]`, on any graph. -/
theorem index_loops {g : Csr α} {rows : Nat → List (Nat × α)} (hrow : ∀ u, u < g.numVertices → g.row u = .ok (rows u))
    (body : S → Nat → Nat × α → Res S) (s : S) :
    raw body g s = forEdges body rows g.numVertices s ∧ indexed body g s = forEdges body rows g.numVertices s := by
  rw [forEdges_eq]
  constructor
  · refine foldlM_rows rows body _ _ ?_ s
    intro i hi s
    exact raw_row (hrow i (List.mem_range.1 hi)) (fun s e => body s i e) s
  · refine foldlM_rows rows body _ _ ?_ s
    intro i hi s
    rw [hrow i (List.mem_range.1 hi), res_bind_ok]

/-- The nested loops over the graph, over its neighbour range and over its edge range, if the end of the graph is where its vertices end. -/
theorem range_loops_partial {g : Csr α} {rows : Nat → List (Nat × α)} (hrow : ∀ u, u < g.numVertices → g.row u = .ok (rows u))
    (hN : g.N = g.numVertices) (body : S → Nat → Nat × α → Res S) (s : S) :
    nested body g s = forEdges body rows g.numVertices s ∧
      (∀ o, Neighbors body g s o ↔ o = forEdges body rows g.numVertices s) ∧
      (∀ o, Edges body g s o ↔ o = forEdges body rows g.numVertices s) := by
  refine ⟨?_, ?_, ?_⟩
  · unfold nested
    rw [hN, List.range_eq_range']
    have := foldlM_counted rows body g.row 0 g.numVertices (fun i _ hi => hrow i (by omega)) s
    rw [forEdges_eq, List.range_eq_range']
    refine (congrArg (fun r : Res (S × Nat) => r >>= fun p => (pure p.1 : Res S)) this).trans ?_
    generalize List.foldlM (m := Res) (fun (s : S) (e : Nat × Nat × α) => body s e.1 e.2) s _ = r
    cases r <;> rfl
  · have hv := (neighbor_range_splits g.row rows 0 g.numVertices (Nat.zero_le _) (fun u _ hu => hrow u hu) .leaf).1 ⟨0, g.numVertices⟩ (by simp [Splitter.leaves])
    simp only [Nat.sub_zero] at hv
    have hf : ∀ (l : List Nat) (s : S), (l.map fun u => (u, rows u)).foldlM (m := Res) (fun s n => n.2.foldlM (fun s e => body s n.1 e) s) s =
        (l.flatMap fun u => (rows u).map fun x => (u, x)).foldlM (fun s e => body s e.1 e.2) s := by
      intro l s
      rw [List.foldlM_map]
      exact foldlM_rows rows body l _ (fun _ _ _ => rfl) s
    intro o
    rw [forEdges_eq, List.range_eq_range', ← hf]
    unfold Neighbors
    rw [hN]
    constructor
    · rintro ⟨ns, h1, rfl⟩
      rw [h1.det hv]; rfl
    · rintro rfl
      exact ⟨_, hv, rfl⟩
  · have hv := edge_range_enumerates g.row rows 0 g.numVertices (Nat.zero_le _) (fun u _ hu => hrow u hu)
    intro o
    unfold Edges forEdges
    rw [hN]
    unfold EdgeRangeVisits at hv
    cases hs : edgeStart g.row 0 g.numVertices with
    | error f => rw [hs] at hv; cases hv
    | ok p =>
      rw [hs] at hv
      simp only at hv ⊢
      constructor
      · rintro ⟨es, h1, rfl⟩
        rw [h1.det hv]; rfl
      · rintro rfl
        exact ⟨_, hv, rfl⟩

/-- If the end of the graph is one past its vertices, these loops read out of bounds, when the body has been executed for all edges. -/
theorem range_loops_wrong {g : Csr α} {rows : Nat → List (Nat × α)} (hrow : ∀ u, u < g.numVertices → g.row u = .ok (rows u))
    (hN : g.N = g.numVertices + 1) (body : S → Nat → Nat × α → Res S) (s s' : S) (hb : forEdges body rows g.numVertices s = .ok s') :
    nested body g s = .error .outOfBounds ∧ (∀ o, Neighbors body g s o ↔ o = .error .outOfBounds) ∧
      (∀ o, Edges body g s o ↔ o = .error .outOfBounds) := by
  have hbad : g.row g.numVertices = .error .outOfBounds := Csr.row_oob (Nat.le_refl _)
  refine ⟨?_, ?_, ?_⟩
  · unfold nested
    rw [hN, List.range_eq_range', List.range'_concat, List.foldlM_append]
    have := foldlM_counted rows body g.row 0 g.numVertices (fun i _ hi => hrow i (by omega)) s
    rw [forEdges_eq, List.range_eq_range'] at hb
    rw [hb] at this
    refine (congrArg (fun r : Res (S × Nat) => (r >>= fun p => List.foldlM (m := Res) (fun (p : S × Nat) u => do
        let r ← g.row u
        let s ← r.foldlM (fun s e => body s p.2 e) p.1
        return (s, p.2 + 1)) p [0 + 1 * g.numVertices]) >>= fun p => (pure p.1 : Res S)) this).trans ?_
    simp [Except.map, hbad]
  · have hv : (neighborIter g.row g.N).Visits 0 (.error .outOfBounds) := by
      refine Iter.visits_fault_of _ .outOfBounds (fun i xs => i ≤ g.numVertices ∧ xs = (List.range' i (g.numVertices - i)).map fun u => (u, rows u)) ?_ ?_
        (s := 0) ⟨Nat.zero_le _, rfl⟩
      · rintro i ⟨h1, h2⟩
        have hi : i = g.numVertices := by
          have := congrArg List.length h2
          simp at this; omega
        subst hi
        refine ⟨by simp [neighborIter, hN], .inl ?_⟩
        simp [neighborIter, hbad]
      · rintro i x xs ⟨h1, h2⟩
        have hlt : i < g.numVertices := by
          rcases Nat.lt_or_ge i g.numVertices with h | h
          · exact h
          · rw [show g.numVertices - i = 0 by omega] at h2; simp at h2
        rw [show g.numVertices - i = (g.numVertices - (i + 1)) + 1 by omega, List.range'_succ, List.map_cons, List.cons.injEq] at h2
        refine ⟨by simp [neighborIter, hN]; omega, by simp [neighborIter, hrow i hlt, h2.1], i + 1, rfl, hlt, h2.2⟩
    intro o
    unfold Neighbors
    constructor
    · rintro ⟨ns, h1, rfl⟩
      rw [h1.det hv]; rfl
    · rintro rfl
      exact ⟨_, hv, rfl⟩
  · have hv := edge_range_last_row_faults g.row rows .outOfBounds g.numVertices hrow hbad
    intro o
    unfold Edges
    rw [hN]
    unfold EdgeRangeVisits at hv
    cases hs : edgeStart g.row 0 (g.numVertices + 1) with
    | error f =>
      rw [hs] at hv
      simp only at hv ⊢
      rw [← hv]
      constructor
      · rintro ⟨es, rfl, rfl⟩; rfl
      · rintro rfl; exact ⟨_, rfl, rfl⟩
    | ok p =>
      rw [hs] at hv
      simp only at hv ⊢
      constructor
      · rintro ⟨es, h1, rfl⟩
        rw [h1.det hv]; rfl
      · rintro rfl
        exact ⟨_, hv, rfl⟩

/-! ### What the loops compute -/

/-- The product, in any arithmetic: position `i` accumulates the edges of `i` in their order. -/
theorem spmv_loop (op : R → R → α → R) (z : R) (rows : Nat → List (Nat × α)) (n : Nat) (hin : ∀ u, u < n → ∀ e ∈ rows u, e.1 < n) (x : List R) (hx : x.length = n) :
    forEdges (spmvBody op x) rows n (List.replicate n z) =
      .ok ((List.range n).map fun i => (rows i).foldl (fun a e => op a (x.getD e.1 z) e.2) z) := by
  rw [forEdges_eq, foldlM_tally Prod.fst (fun a (e : Nat × Nat × α) => op a (x.getD e.2.1 z) e.2.2) _ n _ ?_ _ (by simp)]
  · rw [tally_rows List.nodup_range _ _ (by simp)]
    congr 1
    apply List.ext_getElem <;> simp
  · intro y hy e he
    obtain ⟨u, hu, he⟩ := List.mem_flatMap.1 he
    obtain ⟨e', he', rfl⟩ := List.mem_map.1 he
    have hu' := List.mem_range.1 hu
    have h1 := hin u hu' e' he'
    refine ⟨by simp only; omega, ?_⟩
    simp only [spmvBody]
    rw [vget_of_lt (by omega), res_bind_ok, vget_of_lt (by omega), res_bind_ok, vset_of_lt (by omega)]
    simp [List.getD_eq_getElem?_getD, List.getElem?_eq_getElem (show e'.1 < x.length by omega)]

/-- The number of edges of each vertex. -/
theorem out_degrees_loop (rows : Nat → List (Nat × α)) (n : Nat) :
    forEdges outBody rows n (List.replicate n 0) = .ok ((List.range n).map fun i => (rows i).length) := by
  rw [forEdges_eq, foldlM_tally Prod.fst (fun a (_ : Nat × Nat × α) => a + 1) _ n _ ?_ _ (by simp)]
  · rw [tally_rows List.nodup_range _ _ (by simp)]
    congr 1
    have key : ∀ (l : List (Nat × α)) (a : Nat), l.foldl (fun a _ => a + 1) a = a + l.length := by
      intro l
      induction l with
      | nil => simp
      | cons x l ih => intro a; rw [List.foldl_cons, ih]; simp; omega
    apply List.ext_getElem <;> simp [key]
  · intro y hy e he
    obtain ⟨u, hu, he⟩ := List.mem_flatMap.1 he
    obtain ⟨e', -, rfl⟩ := List.mem_map.1 he
    have hu' := List.mem_range.1 hu
    refine ⟨by simp only; omega, ?_⟩
    simp only [outBody]
    rw [vget_of_lt (by omega), res_bind_ok, vset_of_lt (by omega)]

/-- How often each vertex is the target of an edge. -/
theorem in_degrees_loop (rows : Nat → List (Nat × α)) (n : Nat) (hin : ∀ u, u < n → ∀ e ∈ rows u, e.1 < n) :
    forEdges inBody rows n (List.replicate n 0) =
      .ok ((List.range n).map fun i => (((List.range n).flatMap fun u => (rows u).map Prod.fst).count i)) := by
  rw [forEdges_eq, foldlM_tally (fun e : Nat × Nat × α => e.2.1) (fun a (_ : Nat × Nat × α) => a + 1) _ n _ ?_ _ (by simp)]
  · congr 1
    have key : ∀ (l : List (Nat × Nat × α)) (a : Nat), l.foldl (fun a _ => a + 1) a = a + l.length := by
      intro l
      induction l with
      | nil => simp
      | cons x l ih => intro a; rw [List.foldl_cons, ih]; simp; omega
    apply List.ext_getElem
    · simp [tally]
    · intro i h1 h2
      rw [tally_getElem, key]
      simp only [List.getElem_replicate, Nat.zero_add, List.getElem_map, List.getElem_range]
      have : ((List.range n).flatMap fun u => (rows u).map Prod.fst) = ((List.range n).flatMap fun u => (rows u).map fun x => (u, x)).map fun e => e.2.1 := by
        rw [List.map_flatMap]
        simp [Function.comp_def]
      rw [this, List.count_eq_countP, List.countP_map, ← List.countP_eq_length_filter]
      rfl
  · intro y hy e he
    obtain ⟨u, hu, he⟩ := List.mem_flatMap.1 he
    obtain ⟨e', he', rfl⟩ := List.mem_map.1 he
    have h1 := hin u (List.mem_range.1 hu) e' he'
    refine ⟨by simp only; omega, ?_⟩
    simp only [inBody]
    rw [vget_of_lt (by omega), res_bind_ok, vset_of_lt (by omega)]

/-- Accumulating products is adding their sum. -/
theorem foldl_products [CommSemiring R] (r : List (Nat × R)) (x : List R) (a : R) :
    r.foldl (fun a e => a + x.getD e.1 0 * e.2) a = a + (r.map fun e => e.2 * x.getD e.1 0).sum := by
  induction r generalizing a with
  | nil => simp
  | cons e r ih => rw [List.foldl_cons, ih, List.map_cons, List.sum_cons, add_assoc, mul_comm]

/-- A row's products, grouped by column. -/
theorem row_product [CommSemiring R] (r : List (Nat × R)) (n : Nat) (hin : ∀ e ∈ r, e.1 < n) (f : Nat → R) :
    (r.map fun e => e.2 * f e.1).sum = ((List.range n).map fun j => ((r.filter fun e => e.1 == j).map Prod.snd).sum * f j).sum := by
  induction r with
  | nil => simp
  | cons e r ih =>
    rw [List.map_cons, List.sum_cons, ih (fun e he => hin e (by simp [he]))]
    have key : ∀ j, (((e :: r).filter fun e => e.1 == j).map Prod.snd).sum * f j =
        (if e.1 = j then e.2 * f e.1 else 0) + ((r.filter fun e => e.1 == j).map Prod.snd).sum * f j := by
      intro j
      by_cases c : e.1 = j
      · subst c; simp [add_mul]
      · simp [c]
    simp only [key]
    rw [List.sum_map_add]
    congr 1
    have : ∀ n, e.1 < n → ((List.range n).map fun j => if e.1 = j then e.2 * f e.1 else 0).sum = e.2 * f e.1 := by
      intro n
      induction n with
      | zero => omega
      | succ n ih =>
        intro h
        rw [List.range_succ, List.map_append, List.sum_append]
        by_cases c : e.1 = n
        · have : ((List.range n).map fun j => if e.1 = j then e.2 * f e.1 else 0) = (List.range n).map fun _ => (0 : R) := by
            apply List.map_congr_left
            intro j hj
            rw [if_neg]
            have := List.mem_range.1 hj
            omega
          rw [this]
          simp [c]
        · rw [ih (by omega)]; simp [c]
    exact (this n (hin e (by simp))).symm

/-- In a commutative semiring the loop computes the product of the matrix and the vector. -/
theorem spmv_matrix [CommSemiring R] (A : Rows R) (hA : InRange A) (x : List R) (hx : x.length = A.length) :
    forEdges (spmvBody (fun a b v => a + b * v) x) (fun i => A.getD i []) A.length (List.replicate A.length 0) =
      .ok ((List.range A.length).map fun i => ((List.range A.length).map fun j => entry A i j * x.getD j 0).sum) := by
  have hin : ∀ u, u < A.length → ∀ e ∈ A.getD u [], e.1 < A.length := fun u _ e he => hA u e.1 (List.mem_map.2 ⟨e, he, rfl⟩)
  rw [spmv_loop _ 0 _ _ hin x hx]
  congr 1
  apply List.map_congr_left
  intro i hi
  rw [foldl_products, zero_add, row_product _ A.length (hin i (List.mem_range.1 hi)) fun j => x.getD j 0]
  rfl

/-- The benchmark as it is run: on the adjacency made from a directed edge list by target (`adjacency<1>`), the loops over the indices compute the product with the transposed matrix, and
the loops over the graph, its neighbour range and its edge range read out of bounds. -/
theorem spmv_program [CommSemiring R] [Inhabited R] (o : Csr.Oracles R) (ho : o.Ok) (el : EdgeList R) (hw : el.Wf) (hb : EndpointsBelow el.numVertices el.contents)
    (x : List R) (hx : x.length = el.numVertices) :
    ∃ g, Csr.ofEdgeList o true 1 false el = .ok g ∧
      let body := spmvBody (fun a b v => a + b * v) x
      let y := (List.range el.numVertices).map fun i => ((el.contents.filter fun e => decide (e.2.1 = i)).map fun e => e.2.2 * x.getD e.1 0).sum
      let z := List.replicate el.numVertices 0
      raw body g z = .ok y ∧ indexed body g z = .ok y ∧ nested body g z = .error .outOfBounds ∧
        (∀ r, Neighbors body g z r ↔ r = .error .outOfBounds) ∧ (∀ r, Edges body g z r ↔ r = .error .outOfBounds) := by
  obtain ⟨g, h1, -, h3, -, h4, -, h5⟩ := Csr.fill_ok ho hw hb true (show 1 < 2 by omega) (Csr.sized (el.numVertices + 1) 0)
  have hN : g.N = g.numVertices + 1 := by rw [h4]; exact h3
  refine ⟨g, h1, ?_⟩
  intro body y z
  let rows : Nat → List (Nat × R) := fun u => match g.row u with | .ok r => r | .error _ => []
  have hrows : ∀ u, u < el.numVertices → g.row u = .ok (rows u) ∧ (rows u).Perm (inEdges el.contents u) := by
    intro u hu
    obtain ⟨r, e, hp⟩ := h5 u hu
    have : rows u = r := by simp only [rows, e]
    rw [this]
    exact ⟨e, by simpa using hp⟩
  have hrow : ∀ u, u < g.numVertices → g.row u = .ok (rows u) := fun u hu => (hrows u (by omega)).1
  have hy : forEdges body rows g.numVertices z = .ok y := by
    rw [h4]
    simp only [body, z]
    rw [spmv_loop _ 0 rows el.numVertices ?_ x hx]
    · congr 1
      apply List.map_congr_left
      intro i hi
      rw [foldl_products, zero_add, (((hrows i (List.mem_range.1 hi)).2.map fun e => e.2 * x.getD e.1 0).sum_eq), inEdges, List.map_map]
      rfl
    · intro u hu e he
      have := (hrows u hu).2.mem_iff.1 he
      obtain ⟨e', he', rfl⟩ := List.mem_map.1 this
      exact (hb e' (List.mem_filter.1 he').1).1
  obtain ⟨k1, k2⟩ := index_loops hrow body z
  obtain ⟨k3, k4, k5⟩ := range_loops_wrong hrow hN body z y hy
  exact ⟨k1.trans hy, k2.trans hy, k3, k4, k5⟩

/-! ## C128: the parallel loops -/

/-- The pieces into which a parallel loop divides the edge range of a graph of `n` vertices. -/
def pieces (rows : Nat → List (Nat × α)) (t : Tree) (n : Nat) : List (List (Nat × Nat × α)) :=
  (outerRange.leaves t ⟨0, n⟩).map fun l => rowEdges rows l.b l.e

/-- The pieces are what the threads find when they iterate over their parts of the range. -/
theorem pieces_visited (row : Nat → Res (List (Nat × α))) (rows : Nat → List (Nat × α)) (n : Nat) (hrow : ∀ u, u < n → row u = .ok (rows u)) (t : Tree) :
    (outerRange.leaves t ⟨0, n⟩).length = (pieces rows t n).length ∧
      ∀ (i : Nat) (l : Block) (p : List (Nat × Nat × α)), (outerRange.leaves t ⟨0, n⟩)[i]? = some l → (pieces rows t n)[i]? = some p → EdgeRangeVisits row l.b l.e (.ok p) := by
  refine ⟨by simp [pieces], ?_⟩
  intro i l p hl hp
  simp only [pieces, List.getElem?_map, hl, Option.map_some, Option.some.injEq] at hp
  subst hp
  exact (edge_range_splits row rows 0 n (Nat.zero_le _) (fun u _ hu => hrow u hu) t).1 l (List.mem_of_getElem? hl)

/-- The sources of the pieces. -/
theorem sources_perm (t : Tree) (n : Nat) : ((outerRange.leaves t ⟨0, n⟩).flatMap fun l => List.range' l.b (l.e - l.b)).Perm (List.range n) := by
  have := leaves_additive outerRange outerRange_halves (fun l => List.range' l.b (l.e - l.b)) (by
    intro b m e h1 h2
    have := List.range'_append (s := b) (m := m - b) (n := e - m) (step := 1)
    rw [Nat.one_mul, show b + (m - b) = m by omega, show m - b + (e - m) = e - b by omega] at this
    exact this) t ⟨0, n⟩ (Nat.zero_le _)
  rwa [Nat.sub_zero, ← List.range_eq_range'] at this

/-- Statements that update the position of the edge's source: however the range is divided and whatever the order of the loads and stores of the threads, all ends, nothing is
accessed out of bounds, and every position holds what the sequential loop puts there. -/
theorem parallel_by_source (rows : Nat → List (Nat × α)) (t : Tree) (n : Nat) (op : R → Nat × Nat × α → R) (opM : R → Nat × Nat × α → Res R)
    (hop : ∀ a u, u < n → ∀ e ∈ rows u, opM a (u, e) = .ok (op a (u, e))) (y : List R) (hy : y.length = n) :
    Sure (Step Prod.fst opM) (fun r => r = y.mapIdx fun i a => (rows i).foldl (fun a e => op a (i, e)) a) (threads (pieces rows t n), y) := by
  have hperm := sources_perm t n
  have hnd := hperm.nodup_iff.2 List.nodup_range
  refine sure_of_apart Prod.fst op opM n (fun e => e.1 < n ∧ e.2 ∈ rows e.1) (fun r e he => hop r e.1 he.1 e.2 he.2) _ _ _ ⟨?_, hy, ?_, ?_, ?_⟩
  · have : left (threads (R := R) (pieces rows t n)) =
        ((outerRange.leaves t ⟨0, n⟩).flatMap fun l => List.range' l.b (l.e - l.b)).flatMap fun u => (rows u).map fun x => (u, x) := by
      simp only [left, threads, pieces, List.flatMap_map, List.flatMap_assoc, rowEdges]
    rw [this]
    exact tally_rows hnd op y (fun i hi => hperm.mem_iff.2 (List.mem_range.2 (by omega)))
  · intro i th hi e he
    simp only [threads, pieces, List.map_map, List.getElem?_map, Option.map_eq_some_iff] at hi
    obtain ⟨l, h1, rfl⟩ := hi
    simp only [Function.comp_apply, rowEdges] at he
    obtain ⟨u, hu, he⟩ := List.mem_flatMap.1 he
    obtain ⟨x, hx, rfl⟩ := List.mem_map.1 he
    have : u < n := List.mem_range.1 (hperm.mem_iff.1 (List.mem_flatMap.2 ⟨l, List.mem_of_getElem? h1, hu⟩))
    exact ⟨this, this, hx⟩
  · intro i j a b hij hi hj e he f hf
    simp only [threads, pieces, List.map_map, List.getElem?_map, Option.map_eq_some_iff] at hi hj
    obtain ⟨l, h1, rfl⟩ := hi
    obtain ⟨m, h2, rfl⟩ := hj
    simp only [Function.comp_apply, rowEdges] at he hf
    obtain ⟨u, hu, he⟩ := List.mem_flatMap.1 he
    obtain ⟨x, hx, rfl⟩ := List.mem_map.1 he
    obtain ⟨v, hv, hf⟩ := List.mem_flatMap.1 hf
    obtain ⟨w, hw, rfl⟩ := List.mem_map.1 hf
    simp only
    rintro rfl
    have hpw := (List.nodup_flatMap.1 hnd).2
    obtain ⟨hi', rfl⟩ := List.getElem?_eq_some_iff.1 h1
    obtain ⟨hj', rfl⟩ := List.getElem?_eq_some_iff.1 h2
    rcases Nat.lt_or_ge i j with c | c
    · exact List.pairwise_iff_getElem.1 hpw i j hi' hj' c hu hv
    · exact List.pairwise_iff_getElem.1 hpw j i hj' hi' (by omega) hv hu
  · intro i th hi r hr
    simp only [threads, List.getElem?_map, Option.map_eq_some_iff] at hi
    obtain ⟨p, -, rfl⟩ := hi
    simp at hr

/-- The parallel product gives what the sequential loop gives, in any arithmetic. -/
theorem parallel_spmv (op : R → R → α → R) (z : R) (rows : Nat → List (Nat × α)) (n : Nat) (hin : ∀ u, u < n → ∀ e ∈ rows u, e.1 < n) (x : List R)
    (hx : x.length = n) (t : Tree) :
    Sure (Step Prod.fst (fun a (e : Nat × Nat × α) => do let b ← vget x e.2.1; return op a b e.2.2))
      (fun r => forEdges (spmvBody op x) rows n (List.replicate n z) = .ok r) (threads (pieces rows t n), List.replicate n z) := by
  refine (parallel_by_source rows t n (fun a e => op a (x.getD e.2.1 z) e.2.2) _ ?_ (List.replicate n z) (by simp)).mono ?_
  · intro a u hu e he
    have := hin u hu e he
    simp only
    rw [vget_of_lt (by omega), res_bind_ok]
    simp [List.getD_eq_getElem?_getD, List.getElem?_eq_getElem (show e.1 < x.length by omega)]
  · rintro r rfl
    rw [spmv_loop op z rows n hin x hx]
    congr 1
    apply List.ext_getElem <;> simp

/-- The parallel count of the edges of each vertex. -/
theorem parallel_out_degrees (rows : Nat → List (Nat × α)) (n : Nat) (t : Tree) :
    Sure (Step Prod.fst (fun a (_ : Nat × Nat × α) => (.ok (a + 1) : Res Nat))) (fun r => r = (List.range n).map fun i => (rows i).length)
      (threads (pieces rows t n), List.replicate n 0) := by
  refine (parallel_by_source rows t n (fun a _ => a + 1) _ (fun _ _ _ _ _ => rfl) (List.replicate n 0) (by simp)).mono ?_
  rintro r rfl
  have key : ∀ (l : List (Nat × α)) (a : Nat), l.foldl (fun a _ => a + 1) a = a + l.length := by
    intro l
    induction l with
    | nil => simp
    | cons x l ih => intro a; rw [List.foldl_cons, ih]; simp; omega
  apply List.ext_getElem <;> simp [key]

/-- Statements that update the position of the edge's target: nothing is accessed out of bounds, the loop ends, and no position exceeds the number of edges into it.
Missing: that it equals that number, which `parallel_in_degrees_wrong` refutes. -/
theorem parallel_in_degrees_partial (rows : Nat → List (Nat × α)) (n : Nat) (hin : ∀ u, u < n → ∀ e ∈ rows u, e.1 < n) (t : Tree) :
    Sure (Step (fun e : Nat × Nat × α => e.2.1) (fun a _ => (.ok (a + 1) : Res Nat)))
      (fun r => r.length = n ∧ ∀ (i : Nat) (h : i < r.length), r[i] ≤ ((List.range n).flatMap fun u => (rows u).map Prod.fst).count i)
      (threads (pieces rows t n), List.replicate n 0) := by
  have hperm := sources_perm t n
  have hleft : left (threads (R := Nat) (pieces rows t n)) =
      ((outerRange.leaves t ⟨0, n⟩).flatMap fun l => List.range' l.b (l.e - l.b)).flatMap fun u => (rows u).map fun x => (u, x) := by
    simp only [left, threads, pieces, List.flatMap_map, List.flatMap_assoc, rowEdges]
  refine sure_below _ n (fun i => ((List.range n).flatMap fun u => (rows u).map Prod.fst).count i) _ _ ⟨by simp, ?_, ?_, ?_, ?_⟩
  · intro i th hi e he
    have : e ∈ left (threads (R := Nat) (pieces rows t n)) := List.mem_flatMap.2 ⟨th, List.mem_of_getElem? hi, he⟩
    rw [hleft] at this
    obtain ⟨u, hu, he⟩ := List.mem_flatMap.1 this
    obtain ⟨x, hx, rfl⟩ := List.mem_map.1 he
    exact hin u (List.mem_range.1 (hperm.mem_iff.1 hu)) x hx
  · intro i hi
    rw [hleft, List.getElem_replicate, Nat.zero_add, (hperm.flatMap_right _).countP_eq]
    have : ((List.range n).flatMap fun u => (rows u).map Prod.fst) = ((List.range n).flatMap fun u => (rows u).map fun x => (u, x)).map fun e => e.2.1 := by
      rw [List.map_flatMap]
      simp [Function.comp_def]
    rw [this, List.count_eq_countP, List.countP_map]
    exact Nat.le_refl _
  · intro i e es r hi
    simp [threads] at hi
  · intro i th hi _
    simp only [threads, List.getElem?_map, Option.map_eq_some_iff] at hi
    obtain ⟨p, -, rfl⟩ := hi
    rfl

/-- A graph of seventeen vertices in which the first and the last have an edge to vertex 0. -/
def twoIn (u : Nat) : List (Nat × Unit) := if u = 0 ∨ u = 16 then [(0, ())] else []

/-- Dividing its edge range once is allowed; both threads may load the counter before either stores it, and vertex 0 is counted once although two edges enter it. -/
theorem parallel_in_degrees_wrong :
    outerRange.Legal (.node .leaf .leaf) ⟨0, 17⟩ ∧ ((List.range 17).flatMap fun u => (twoIn u).map Prod.fst).count 0 = 2 ∧
      Runs (Step (fun e : Nat × Nat × Unit => e.2.1) (fun a _ => (.ok (a + 1) : Res Nat)))
        (threads (pieces twoIn (.node .leaf .leaf) 17), List.replicate 17 0) (.ok (1 :: List.replicate 16 0)) := by
  refine ⟨by simp [Splitter.Legal, outerRange], by decide, ?_⟩
  have hp : pieces twoIn (.node .leaf .leaf) 17 = [[(16, 0, ())], [(0, 0, ())]] := by decide
  rw [hp]
  refine .step (s' := ([⟨[(16, 0, ())], some 0⟩, ⟨[(0, 0, ())], none⟩], List.replicate 17 0)) (.load (t := 0) (e := (16, 0, ())) (es := []) rfl) ?_
  refine .step (s' := ([⟨[(16, 0, ())], some 0⟩, ⟨[(0, 0, ())], some 0⟩], List.replicate 17 0)) (.load (t := 1) (e := (0, 0, ())) (es := []) rfl) ?_
  refine .step (s' := ([⟨[], none⟩, ⟨[(0, 0, ())], some 0⟩], 1 :: List.replicate 16 0)) (.store (t := 0) (e := (16, 0, ())) (es := []) (a := 0) rfl) ?_
  refine .step (s' := ([⟨[], none⟩, ⟨[], none⟩], 1 :: List.replicate 16 0)) (.store (t := 1) (e := (0, 0, ())) (es := []) (a := 0) rfl) ?_
  exact .done (.done (by simp))

/-- Non-vacuity of C127: a graph with an empty row and two edges between the same vertices, whose end is where its vertices end. -/
example : let g : Csr Nat := Csr.ofVectors [0, 2, 2, 4] [1, 1, 0, 2] [10, 20, 30, 40]
    let rows : Nat → List (Nat × Nat) := fun u => [[(1, 10), (1, 20)], [], [(0, 30), (2, 40)]].getD u []
    (∀ u, u < g.numVertices → g.row u = .ok (rows u)) ∧ g.N = g.numVertices ∧ (∀ u, u < g.numVertices → ∀ e ∈ rows u, e.1 < g.numVertices) ∧
      raw (spmvBody (fun a b v => a + b * v) [1, 2, 3]) g [0, 0, 0] = .ok [60, 0, 150] := by
  refine ⟨?_, rfl, ?_, rfl⟩
  · intro u hu
    match u, hu with
    | 0, _ => rfl
    | 1, _ => rfl
    | 2, _ => rfl
  · intro u hu
    match u, hu with
    | 0, _ => decide
    | 1, _ => decide
    | 2, _ => decide

/-- Non-vacuity of `spmv_program`: the edges 2 → 1, 0 → 3, 2 → 0 and 3 → 3. -/
example : let el : EdgeList Nat := ⟨4, false, [2, 0, 2, 3], [1, 3, 0, 3], [10, 11, 12, 13]⟩
    el.Wf ∧ EndpointsBelow el.numVertices el.contents ∧ ∃ o : Csr.Oracles Nat, o.Ok := by
  refine ⟨⟨rfl, rfl⟩, ?_, Csr.exists_oracles⟩
  simp [EndpointsBelow, EdgeList.contents, EdgeList.numVertices]

/-- Non-vacuity of C128: a graph of twenty vertices may be divided, into pieces with edges in each. -/
example : outerRange.Legal (.node .leaf .leaf) ⟨0, 20⟩ ∧
    (pieces (fun u => [((u + 1) % 20, u)]) (.node .leaf .leaf) 20).map List.length = [10, 10] := by
  refine ⟨by simp [Splitter.Legal, outerRange], by decide⟩

end NW.Apb
