import Verif.Model.BiAdjacency
import Verif.Props.CsrOps

/-!
# C81: bipartite adjacencies
-/

namespace NW.BiCsr
variable {α : Type}
open Spec EdgeList
open Csr (Oracles)

/-! ## Specification -/

/-- The vertices of a part declared to have `n` vertices, once edges with the given ids have been added. -/
def partSize (n : Nat) (ids : List Nat) : Nat := ids.foldl (fun k i => max k (i + 1)) n

/-- The edges at vertex `u` of part `idx`, as (vertex of the other part, attribute). -/
def edgesAt (idx : Nat) (es : List (Nat × Nat × α)) (u : Nat) : List (Nat × α) := if idx = 0 then outEdges es u else inEdges es u

/-! ## Helper lemmas -/

theorem lt_partSize {n : Nat} {ids : List Nat} : n ≤ partSize n ids ∧ ∀ i ∈ ids, i < partSize n ids := by
  induction ids generalizing n with
  | nil => exact ⟨Nat.le_refl _, by simp⟩
  | cons i ids ih =>
    obtain ⟨h1, h2⟩ := ih (n := max n (i + 1))
    refine ⟨Nat.le_trans (Nat.le_max_left _ _) h1, ?_⟩
    intro j hj
    rcases List.mem_cons.1 hj with rfl | hj
    · exact Nat.lt_of_lt_of_le (by omega) h1
    · exact h2 j hj

theorem partSize_fst (n : Nat) (es : List (Nat × Nat × α)) : es.foldl (fun k x => max k (x.1 + 1)) n = partSize n (es.map (·.1)) := by
  rw [partSize, List.foldl_map]

theorem partSize_snd (n : Nat) (es : List (Nat × Nat × α)) : es.foldl (fun k x => max k (x.2.1 + 1)) n = partSize n (es.map (·.2.1)) := by
  rw [partSize, List.foldl_map]

/-- What a list consists of. -/
structure Is (el : BiEdgeList α) (m n : Nat) (es : List (Nat × Nat × α)) : Prop where
  col0 : el.col0 = es.map (·.1)
  col1 : el.col1 = es.map (·.2.1)
  attrs : el.attrs = es.map (·.2.2)
  card0 : el.card0 = partSize m (es.map (·.1))
  card1 : el.card1 = partSize n (es.map (·.2.1))

theorem Is.col {el : BiEdgeList α} {m n : Nat} {es : List (Nat × Nat × α)} (h : Is el m n es) (idx : Nat) : el.col idx = (oriented idx es).map (·.1) := by
  rw [oriented_keys, BiEdgeList.col]
  split
  · exact h.col0
  · exact h.col1

theorem Is.size {el : BiEdgeList α} {m n : Nat} {es : List (Nat × Nat × α)} (h : Is el m n es) : el.size = es.length := by
  rw [BiEdgeList.size, h.col0, List.length_map]

theorem Is.zip {el : BiEdgeList α} {m n : Nat} {es : List (Nat × Nat × α)} (h : Is el m n es) {idx : Nat} (hidx : idx < 2) :
    (el.col idx).zip ((el.col ((idx + 1) % 2)).zip el.attrs) = oriented idx es := by
  have key : (es.map (·.1)).zip ((es.map (·.2.1)).zip (es.map (·.2.2))) = es ∧ (es.map (·.2.1)).zip ((es.map (·.1)).zip (es.map (·.2.2))) = es.map flipEdge := by
    constructor
    · apply List.ext_getElem
      · simp
      · intro i h1 h2; simp
    · apply List.ext_getElem
      · simp
      · intro i h1 h2; simp [flipEdge]
  have : idx = 0 ∨ idx = 1 := by omega
  rcases this with rfl | rfl
  · simpa [BiEdgeList.col, h.col0, h.col1, h.attrs, oriented] using key.1
  · simpa [BiEdgeList.col, h.col0, h.col1, h.attrs, oriented] using key.2

theorem Is.below {el : BiEdgeList α} {m n : Nat} {es : List (Nat × Nat × α)} (h : Is el m n es) (idx : Nat) :
    ∀ x ∈ oriented idx es, x.1 < el.numVertices idx := by
  intro x hx
  have hm : x.1 ∈ (oriented idx es).map (·.1) := List.mem_map.2 ⟨x, hx, rfl⟩
  rw [oriented_keys] at hm
  unfold BiEdgeList.numVertices
  split at hm <;> rename_i hi
  · rw [if_pos hi, h.card0]; exact lt_partSize.2 _ hm
  · rw [if_neg hi, h.card1]; exact lt_partSize.2 _ hm

theorem pushAll_is (w m n : Nat) (es : List (Nat × Nat × α)) (hm : m < 2 ^ w) (hn : n < 2 ^ w) (hfit : ∀ x ∈ es, x.1 + 1 < 2 ^ w ∧ x.2.1 + 1 < 2 ^ w) :
    ∃ el, BiEdgeList.pushAll w (BiEdgeList.new m n) es = .ok el ∧ Is el m n es ∧ el.isOpen = true := by
  have key : ∀ (es : List (Nat × Nat × α)) (el : BiEdgeList α), el.isOpen = true → el.card0 < 2 ^ w →
      el.card1 < 2 ^ w → (∀ x ∈ es, x.1 + 1 < 2 ^ w ∧ x.2.1 + 1 < 2 ^ w) →
      BiEdgeList.pushAll w el es = .ok
        { el with
          card0 := es.foldl (fun k x => max k (x.1 + 1)) el.card0
          card1 := es.foldl (fun k x => max k (x.2.1 + 1)) el.card1
          col0 := el.col0 ++ es.map (·.1), col1 := el.col1 ++ es.map (·.2.1)
          attrs := el.attrs ++ es.map (·.2.2) } := by
    intro es
    induction es with
    | nil => intro el _ _ _ _; simp [BiEdgeList.pushAll]
    | cons x xs ih =>
      intro el ho h0 h1 hf
      obtain ⟨b1, b2⟩ := hf x (by simp)
      simp only [BiEdgeList.pushAll, BiEdgeList.pushBack, check, ho, if_true, res_bind_ok, res_pure]
      rw [Nat.mod_eq_of_lt (a := x.1) (by omega), Nat.mod_eq_of_lt (a := x.2.1) (by omega),
        Nat.mod_eq_of_lt (a := x.1 + 1) (by omega), Nat.mod_eq_of_lt (a := x.2.1 + 1) (by omega),
        Nat.mod_eq_of_lt (a := el.card0) (by omega), Nat.mod_eq_of_lt (a := el.card1) (by omega)]
      rw [ih _ ?_ ?_ ?_ (fun y hy => hf y (by simp [hy]))]
      · simp [Nat.max_comm]
      · rfl
      · simp; omega
      · simp; omega
  refine ⟨_, key es (BiEdgeList.new m n) rfl hm hn hfit, ⟨?_, ?_, ?_, partSize_fst _ _, partSize_snd _ _⟩, rfl⟩ <;> simp [BiEdgeList.new]

theorem fillDirected_ok [Inhabited α] {o : Oracles α} (ho : o.Ok) {el : BiEdgeList α} {m n : Nat} {es : List (Nat × Nat × α)} (h : Is el m n es)
    {idx : Nat} (hidx : idx < 2) (cs : Csr α) :
    ∃ g, fill o true idx false el cs = .ok g ∧ g.Wf ∧ g.N = cs.N ∧ g.numVertices = el.numVertices idx ∧ g.numEdges = es.length ∧
      ∀ u, u < el.numVertices idx → ∃ r, g.row u = .ok r ∧ r.Perm (edgesAt idx es u) := by
  have hp : (o.srt (oriented idx es)).Perm (oriented idx es) := ho.srt.perm _
  have hbel := h.below idx
  have hdeg : el.degrees o.sched true idx = .ok ((List.range (el.numVertices idx)).map fun u => ((oriented idx es).map (·.1)).count u) := by
    rw [BiEdgeList.degrees, if_pos rfl, h.col, vincrAll_counts]
    · rw [Csr.counts_perm (ho.sched _)]
    · intro i hi
      obtain ⟨x, hx, rfl⟩ := List.mem_map.1 ((ho.sched _).mem_iff.1 hi)
      exact hbel x hx
  have hoff := Csr.offsets_ok (ind0 := vresize cs.indices (el.numVertices idx + 1) 0)
    (deg := (List.range (el.numVertices idx)).map fun u => ((oriented idx es).map (·.1)).count u) (n := el.numVertices idx) (by simp) (by simp)
  have hcl : ∀ i, (el.col i).length = el.size := by
    intro i; rw [h.col, h.size, List.length_map, Csr.oriented_length]
  have ht : vcopy (vresize cs.tgt el.size 0) 0 (el.col ((idx + 1) % 2)) = .ok (el.col ((idx + 1) % 2)) := vcopy_all (by simp [hcl])
  have ha : vcopy (vresize cs.attrs el.size default) 0 el.attrs = .ok el.attrs := vcopy_all (by simp [h.attrs, h.size])
  have hg : fillDirected o.sched o.srt true idx el (el.numVertices idx) cs = .ok { cs with
      indices := 0 :: inclusiveScan 0 ((List.range (el.numVertices idx)).map fun v => ((o.srt (oriented idx es)).map (·.1)).count v)
      tgt := (o.srt (oriented idx es)).map (·.2.1), attrs := (o.srt (oriented idx es)).map (·.2.2) } := by
    unfold fillDirected
    rw [hdeg, res_bind_ok]
    rw [vset_of_lt (by simp), res_bind_ok]
    rw [vset_of_lt (by simp), res_bind_ok] at hoff
    rw [hoff, res_bind_ok, ht, res_bind_ok, ha, res_bind_ok, h.zip hidx, Csr.counts_perm (hp.map _)]
    rfl
  generalize hz : o.srt (oriented idx es) = z at *
  refine ⟨{ cs with
      indices := 0 :: inclusiveScan 0 ((List.range (el.numVertices idx)).map fun v => (z.map (·.1)).count v)
      tgt := z.map (·.2.1), attrs := z.map (·.2.2) }, ?_, ?_⟩
  · simp only [fill, if_true, hg, res_bind_ok]; rfl
  · obtain ⟨h1, h2, h3⟩ := Csr.counting_sort (z := z) (n := el.numVertices idx)
      (g := { cs with
        indices := 0 :: inclusiveScan 0 ((List.range (el.numVertices idx)).map fun v => (z.map (·.1)).count v)
        tgt := z.map (·.2.1), attrs := z.map (·.2.2) })
      (hz ▸ Csr.keySort_sorted ho.srt _) (fun x hx => hbel x (hp.mem_iff.1 hx)) rfl rfl rfl
    refine ⟨h1, rfl, h2, ?_, ?_⟩
    · simp [Csr.numEdges, hp.length_eq, Csr.oriented_length]
    · intro u hu
      refine ⟨_, h3 u hu, ?_⟩
      rw [Csr.filter_map_eq_outEdges, edgesAt, ← oriented_outEdges]
      exact Csr.outEdges_perm hp u

theorem out_in_count [DecidableEq α] (es : List (Nat × Nat × α)) (u v : Nat) (a : α) : (outEdges es u).count (v, a) = (inEdges es v).count (u, a) := by
  induction es with
  | nil => rfl
  | cons e es ih =>
    simp only [outEdges, inEdges, List.filter_cons] at ih ⊢
    by_cases c1 : e.1 = u <;> by_cases c2 : e.2.1 = v <;> simp [c1, c2, List.count_cons, ih]

/-! ## C81 -/

/-- C81 (partial: all but iterating over the whole structure). Any edges pushed to a bipartite list, then a `biadjacency<idx>` of the list: it has the vertices of part `idx`, knows the size of the other part, and the
neighbours of each vertex, with their attributes, are exactly the pushed edges at that vertex, with multiplicity; no other vertex can be read.
For every schedule and every conforming sort.  Missing: iteration from `begin()` to `end()`, which is out of bounds (`biadjacency_outer_reads_past_end`). -/
theorem biadjacency_build_partial [Inhabited α] (o : Oracles α) (ho : o.Ok) (w m n : Nat) (es : List (Nat × Nat × α)) (hm : m < 2 ^ w) (hn : n < 2 ^ w)
    (hfit : ∀ x ∈ es, x.1 + 1 < 2 ^ w ∧ x.2.1 + 1 < 2 ^ w) (idx : Nat) (hidx : idx < 2) :
    ∃ el g, BiEdgeList.pushAll w (BiEdgeList.new m n) es = .ok el ∧ ofEdgeList o true idx false el = .ok g ∧
      g.numVertices idx = partSize m (es.map (·.1)) ∧ g.numVertices (1 - idx) = partSize n (es.map (·.2.1)) ∧
      g.csr.numVertices = g.numVertices 0 ∧ g.csr.numEdges = es.length ∧
      (∀ u, u < g.numVertices 0 → ∃ r, g.csr.row u = .ok r ∧ r.Perm (edgesAt idx es u)) ∧
      (∀ u, g.numVertices 0 ≤ u → g.csr.row u = .error .outOfBounds) := by
  obtain ⟨el, h1, h2, _⟩ := pushAll_is w m n es hm hn hfit
  obtain ⟨g, g1, _, _, g4, g5, g6⟩ := fillDirected_ok ho h2 hidx (Csr.sized (el.numVertices idx + 1) 0)
  refine ⟨el, ⟨el.numVertices idx, el.numVertices ((idx + 1) % 2), g⟩, h1, ?_, ?_, ?_, g4, g5, g6, ?_⟩
  · unfold ofEdgeList; rw [g1]; rfl
  · have : idx = 0 ∨ idx = 1 := by omega
    rcases this with rfl | rfl
    · exact h2.card0
    · exact h2.card0
  · have : idx = 0 ∨ idx = 1 := by omega
    rcases this with rfl | rfl
    · exact h2.card1
    · exact h2.card1
  · intro u hu
    exact Csr.row_oob (by rw [g4]; exact hu)

/-- The two adjacencies of a list are duals: `v` is in the row of `u` of `biadjacency<0>`, with attribute `a`, as often as `u` is in the row of `v` of `biadjacency<1>`. -/
theorem biadjacency_dual [DecidableEq α] [Inhabited α] (o o' : Oracles α) (ho : o.Ok) (ho' : o'.Ok) (w m n : Nat) (es : List (Nat × Nat × α)) (hm : m < 2 ^ w) (hn : n < 2 ^ w)
    (hfit : ∀ x ∈ es, x.1 + 1 < 2 ^ w ∧ x.2.1 + 1 < 2 ^ w) :
    ∃ el g h, BiEdgeList.pushAll w (BiEdgeList.new m n) es = .ok el ∧ ofEdgeList o true 0 false el = .ok g ∧ ofEdgeList o' true 1 false el = .ok h ∧
      g.numVertices 0 = h.numVertices 1 ∧ g.numVertices 1 = h.numVertices 0 ∧
      ∀ u v a r s, g.csr.row u = .ok r → h.csr.row v = .ok s → r.count (v, a) = s.count (u, a) := by
  obtain ⟨el, g, e1, e2, e3, e4, _, _, e5, e6⟩ := biadjacency_build_partial o ho w m n es hm hn hfit 0 (by omega)
  obtain ⟨el', h, f1, f2, f3, f4, _, _, f5, f6⟩ := biadjacency_build_partial o' ho' w m n es hm hn hfit 1 (by omega)
  rw [e1] at f1
  cases f1
  refine ⟨el, g, h, e1, e2, f2, by rw [e3, f3], by rw [show (1 : Nat) = 1 - 0 from rfl, e4, show (0 : Nat) = 1 - 1 from rfl, f4], ?_⟩
  intro u v a r s hr hs
  have hu : u < g.numVertices 0 := by
    rcases Nat.lt_or_ge u (g.numVertices 0) with h' | h'
    · exact h'
    · rw [e6 u h'] at hr; cases hr
  have hv : v < h.numVertices 0 := by
    rcases Nat.lt_or_ge v (h.numVertices 0) with h' | h'
    · exact h'
    · rw [f6 v h'] at hs; cases hs
  obtain ⟨r', p1, p2⟩ := e5 u hu
  obtain ⟨s', q1, q2⟩ := f5 v hv
  rw [hr] at p1; cases p1
  rw [hs] at q1; cases q1
  rw [p2.count_eq, q2.count_eq]
  exact out_in_count es u v a

/-- With `sort_biadjacency`, the neighbours of every vertex are moreover in increasing order (of their attributes nothing is said: see `sort_detaches_attributes`). -/
theorem biadjacency_sorted [Inhabited α] (o : Oracles α) (ho : o.Ok) (w m n : Nat) (es : List (Nat × Nat × α)) (hm : m < 2 ^ w) (hn : n < 2 ^ w)
    (hfit : ∀ x ∈ es, x.1 + 1 < 2 ^ w ∧ x.2.1 + 1 < 2 ^ w) (idx : Nat) (hidx : idx < 2) :
    ∃ el g, BiEdgeList.pushAll w (BiEdgeList.new m n) es = .ok el ∧ ofEdgeList o true idx true el = .ok g ∧ g.csr.numVertices = g.numVertices 0 ∧
      ∀ u, u < g.numVertices 0 → ∃ r, g.csr.row u = .ok r ∧ (r.map (·.1)).Pairwise (· ≤ ·) ∧ (r.map (·.1)).Perm ((edgesAt idx es u).map (·.1)) := by
  obtain ⟨el, h1, h2, _⟩ := pushAll_is w m n es hm hn hfit
  obtain ⟨g, g1, g2, _, g4, g5, g6⟩ := fillDirected_ok ho h2 hidx (Csr.sized (el.numVertices idx + 1) 0)
  obtain ⟨g', e1, e2, e3, _, e5⟩ := Csr.sort_rows_characterised o.srtIds ho.srtIds g g2
  have hs : fill o true idx true el (Csr.sized (el.numVertices idx + 1) 0) = .ok g' := by
    have : fill o true idx true el (Csr.sized (el.numVertices idx + 1) 0) =
        (fill o true idx false el (Csr.sized (el.numVertices idx + 1) 0)).bind (Csr.sortToBeIndexed o.srtIds) := by
      simp only [fill, if_true]
      cases fillDirected o.sched o.srt true idx el (el.numVertices idx) (Csr.sized (el.numVertices idx + 1) 0) <;> rfl
    rw [this, g1]; exact e1
  refine ⟨el, ⟨el.numVertices idx, el.numVertices ((idx + 1) % 2), g'⟩, h1, ?_, by rw [e3, g4]; rfl, ?_⟩
  · unfold ofEdgeList; rw [hs]; rfl
  · intro u hu
    obtain ⟨r, p1, p2⟩ := g6 u hu
    obtain ⟨r', q1, q2, q3, _⟩ := e5 u r p1
    exact ⟨r', q1, q3, q2.trans (p2.map _)⟩

/-- C81 fails for iteration: `end()` is one row too far, so iterating over all rows of any `biadjacency` constructed from a list reads the offsets out of bounds. -/
theorem biadjacency_outer_reads_past_end [Inhabited α] (o : Oracles α) (ho : o.Ok) (w m n : Nat) (es : List (Nat × Nat × α)) (hm : m < 2 ^ w) (hn : n < 2 ^ w)
    (hfit : ∀ x ∈ es, x.1 + 1 < 2 ^ w ∧ x.2.1 + 1 < 2 ^ w) (idx : Nat) (hidx : idx < 2) :
    ∃ el g, BiEdgeList.pushAll w (BiEdgeList.new m n) es = .ok el ∧ ofEdgeList o true idx false el = .ok g ∧ g.csr.outer = .error .outOfBounds := by
  obtain ⟨el, h1, h2, _⟩ := pushAll_is w m n es hm hn hfit
  obtain ⟨g, g1, g2, g3, g4, _⟩ := fillDirected_ok ho h2 hidx (Csr.sized (el.numVertices idx + 1) 0)
  refine ⟨el, ⟨el.numVertices idx, el.numVertices ((idx + 1) % 2), g⟩, h1, by unfold ofEdgeList; rw [g1]; rfl, ?_⟩
  exact (Csr.csr_outer_iff g g2).2 (by rw [g3, g4]; exact Nat.lt_succ_self _)

/-- The structure made from offset and target vectors can be iterated. -/
theorem biadjacency_ofVectors (n1 : Nat) (indices tgt : List Nat) (attrs : List α) (hg : (ofVectors n1 indices tgt attrs).csr.Wf) :
    (ofVectors n1 indices tgt attrs).numVertices 0 = indices.length - 1 ∧ (ofVectors n1 indices tgt attrs).numVertices 1 = n1 ∧
    ∃ rows, (ofVectors n1 indices tgt attrs).csr.outer = .ok rows ∧ rows.length = indices.length - 1 ∧
      ∀ u (hu : u < rows.length), (ofVectors n1 indices tgt attrs).csr.row u = .ok rows[u] :=
  ⟨rfl, rfl, Csr.csr_outer_ofVectors indices tgt attrs hg⟩

/-- C81 fails for undirected bipartite lists: both columns are counted in an array that has room for one part, so an id of the other part that is too large for it is a write out of bounds. -/
theorem biadjacency_undirected_oob [Inhabited α] (o : Oracles α) (w m n : Nat) (es : List (Nat × Nat × α)) (hm : m < 2 ^ w) (hn : n < 2 ^ w)
    (hfit : ∀ x ∈ es, x.1 + 1 < 2 ^ w ∧ x.2.1 + 1 < 2 ^ w) (idx : Nat) (hidx : idx < 2)
    (hbig : ∃ x ∈ es, (if idx = 0 then partSize m (es.map (·.1)) else partSize n (es.map (·.2.1))) ≤ (if idx = 0 then x.2.1 else x.1)) :
    ∃ el, BiEdgeList.pushAll w (BiEdgeList.new m n) es = .ok el ∧ ofEdgeList o false idx false el = .error .outOfBounds := by
  obtain ⟨el, h1, h2, _⟩ := pushAll_is w m n es hm hn hfit
  refine ⟨el, h1, ?_⟩
  have hcl : ∀ i, (el.col i).length = el.size := by
    intro i; rw [h2.col, h2.size, List.length_map, Csr.oriented_length]
  have hnv : el.numVertices idx = if idx = 0 then partSize m (es.map (·.1)) else partSize n (es.map (·.2.1)) := by
    unfold BiEdgeList.numVertices; rw [h2.card0, h2.card1]
  have hmem : ∃ i ∈ el.col idx ++ el.col ((idx + 1) % 2), (List.replicate (el.numVertices idx) 0).length ≤ i := by
    obtain ⟨x, hx, hle⟩ := hbig
    refine ⟨_, List.mem_append.2 (.inr ?_), by rw [List.length_replicate, hnv]; exact hle⟩
    rw [h2.col, oriented_keys]
    have : idx = 0 ∨ idx = 1 := by omega
    rcases this with rfl | rfl
    · exact List.mem_map.2 ⟨x, hx, rfl⟩
    · exact List.mem_map.2 ⟨x, hx, rfl⟩
  have htmp : vcopy (List.replicate (2 * el.size) 0) 0 (el.col idx) = .ok (el.col idx ++ List.replicate el.size 0) := by
    rw [vcopy_of_le (by simp [hcl]; omega)]
    congr 1
    rw [hcl, List.take_zero, List.nil_append, List.drop_replicate, show 2 * el.size - (0 + el.size) = el.size by omega]
  have htmp2 : vcopy (el.col idx ++ List.replicate el.size 0) el.size (el.col ((idx + 1) % 2)) = .ok (el.col idx ++ el.col ((idx + 1) % 2)) := by
    rw [vcopy_of_le (by simp [hcl])]
    congr 1
    rw [List.take_append_of_le_length (by simp [hcl]), List.take_of_length_le (by simp [hcl]), List.drop_of_length_le (by simp [hcl]), List.append_nil]
  unfold ofEdgeList fill
  simp only [Bool.false_eq_true, if_false, fillUndirected]
  rw [htmp, res_bind_ok, htmp2, res_bind_ok, vset_of_lt (by simp), res_bind_ok, vincrAll_oob hmem]
  rfl

/-! ### Non-vacuity -/

example : ∃ (o : Oracles Nat), o.Ok ∧ (∀ x ∈ [(2, 0, 70), (0, 4, 71), (2, 4, 72)], x.1 + 1 < 2 ^ 32 ∧ x.2.1 + 1 < 2 ^ 32) ∧
    partSize 0 [2, 0, 2] = 3 ∧ partSize 0 [0, 4, 4] = 5 ∧ edgesAt 0 [(2, 0, 70), (0, 4, 71), (2, 4, 72)] 2 = [(0, 70), (4, 72)] ∧
    edgesAt 1 [(2, 0, 70), (0, 4, 71), (2, 4, 72)] 4 = [(0, 71), (2, 72)] := by
  obtain ⟨o, ho⟩ := Csr.exists_oracles (α := Nat)
  exact ⟨o, ho, by decide, by decide, by decide, by decide, by decide⟩

/-- The hypotheses of `biadjacency_undirected_oob` are met by a list with one edge. -/
example : ∃ x ∈ [(0, 3, ())], (if (0 : Nat) = 0 then partSize 0 ([(0, 3, ())].map (·.1)) else partSize 0 ([(0, 3, ())].map (·.2.1))) ≤ (if (0 : Nat) = 0 then x.2.1 else x.1) := by
  decide

example : (ofVectors 5 [0, 1, 1, 3] [4, 0, 4] [71, 70, 72]).csr.Wf ∧ (ofVectors 5 [0, 1, 1, 3] [4, 0, 4] [71, 70, 72]).csr.outer = .ok [[(4, 71)], [], [(0, 70), (4, 72)]] := by
  refine ⟨⟨by decide, rfl, by simp [ofVectors, Csr.ofVectors], rfl, rfl⟩, by decide⟩

end NW.BiCsr
