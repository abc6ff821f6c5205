import Verif.Lemmas.Csr

/-! A well-formed compressed structure is the same thing as its list of rows. -/

namespace NW

theorem inclusiveScan_append (acc : Nat) (l m : List Nat) :
    inclusiveScan acc (l ++ m) = inclusiveScan acc l ++ inclusiveScan (acc + l.sum) m := by
  induction l generalizing acc with
  | nil => simp [inclusiveScan]
  | cons x xs ih => simp [inclusiveScan, ih, Nat.add_assoc]

theorem sum_map_length_take {β : Type} (rows : List (List β)) (u : Nat) :
    (((rows.map List.length)).take u).sum = ((rows.take u).flatten).length := by
  simp [List.length_flatten, List.map_take]

theorem offsets_rows {β : Type} (rows : List (List β)) (u : Nat) (hu : u ≤ rows.length) :
    ((0 :: inclusiveScan 0 (rows.map List.length)) : List Nat)[u]? = some ((rows.take u).flatten).length := by
  cases u with
  | zero => simp
  | succ u =>
    rw [List.getElem?_cons_succ, inclusiveScan_getElem? _ _ _ (by simp; omega), sum_map_length_take]
    simp

theorem flatten_split {β : Type} (rows : List (List β)) (u : Nat) (hu : u < rows.length) :
    rows.flatten = (rows.take u).flatten ++ (rows[u] ++ (rows.drop (u + 1)).flatten) := by
  conv => lhs; rw [← List.take_append_drop u rows]
  rw [List.flatten_append, List.drop_eq_getElem_cons hu, List.flatten_cons]

theorem flatten_take_succ {β : Type} (rows : List (List β)) (u : Nat) (hu : u < rows.length) :
    (rows.take (u + 1)).flatten = (rows.take u).flatten ++ rows[u] := by
  rw [List.take_succ_eq_append_getElem hu, List.flatten_append, List.flatten_singleton]

theorem slice_flatten {β : Type} (rows : List (List β)) (u : Nat) (hu : u < rows.length) :
    slice rows.flatten ((rows.take u).flatten).length ((rows.take (u + 1)).flatten).length = rows[u] := by
  unfold slice
  rw [drop_of_eq_append (flatten_split rows u hu) rfl]
  rw [flatten_take_succ _ _ hu]
  simp

namespace Csr
variable {α : Type}

/-- `g` represents exactly the list of rows `rows`. -/
structure Rows (g : Csr α) (rows : List (List (Nat × α))) : Prop where
  indices : g.indices = 0 :: inclusiveScan 0 (rows.map List.length)
  tgt : g.tgt = rows.flatten.map (·.1)
  attrs : g.attrs = rows.flatten.map (·.2)

theorem Rows.len {g : Csr α} {rows} (h : g.Rows rows) : g.indices.length = rows.length + 1 := by
  rw [h.indices]; simp [inclusiveScan_length]

theorem Rows.numVertices {g : Csr α} {rows} (h : g.Rows rows) : g.numVertices = rows.length := by
  simp [Csr.numVertices, h.len]

theorem Rows.numEdges {g : Csr α} {rows} (h : g.Rows rows) : g.numEdges = rows.flatten.length := by
  simp only [Csr.numEdges, h.tgt, List.length_map]

theorem Rows.edges {g : Csr α} {rows} (h : g.Rows rows) : g.edges = rows.flatten := by
  rw [Csr.edges, h.tgt, h.attrs]
  generalize rows.flatten = l
  apply List.ext_getElem
  · simp
  · intro i h1 h2; simp

theorem Rows.offset {g : Csr α} {rows} (h : g.Rows rows) {u : Nat} (hu : u ≤ rows.length) :
    g.indices[u]? = some ((rows.take u).flatten).length := by
  rw [h.indices]; exact offsets_rows rows u hu

theorem Rows.vget {g : Csr α} {rows} (h : g.Rows rows) {u : Nat} (hu : u ≤ rows.length) :
    vget g.indices u = .ok ((rows.take u).flatten).length := vget_eq_ok.2 (h.offset hu)

theorem take_flatten_length_mono {β : Type} (rows : List (List β)) {i j : Nat} (h : i ≤ j) :
    ((rows.take i).flatten).length ≤ ((rows.take j).flatten).length := by
  have : rows.take i = (rows.take j).take i := by rw [List.take_take, Nat.min_eq_left h]
  rw [this]
  conv => rhs; rw [← List.take_append_drop i (rows.take j)]
  rw [List.flatten_append, List.length_append]; omega

theorem take_flatten_length_le {β : Type} (rows : List (List β)) (i : Nat) :
    ((rows.take i).flatten).length ≤ rows.flatten.length := by
  conv => rhs; rw [← List.take_append_drop i rows]
  rw [List.flatten_append, List.length_append]; omega

theorem Rows.wf {g : Csr α} {rows} (h : g.Rows rows) : g.Wf := by
  refine ⟨by rw [h.indices]; simp, by rw [h.indices]; simp, ?_, ?_, by rw [h.tgt, h.attrs, List.length_map, List.length_map]⟩
  · rw [List.pairwise_iff_getElem]
    intro i j hi hj hij
    rw [h.len] at hi hj
    have e1 := h.offset (u := i) (by omega)
    have e2 := h.offset (u := j) (by omega)
    rw [List.getElem?_eq_getElem (by rw [h.len]; exact hi)] at e1
    rw [List.getElem?_eq_getElem (by rw [h.len]; exact hj)] at e2
    injection e1 with e1
    injection e2 with e2
    rw [e1, e2]
    exact take_flatten_length_mono _ (by omega)
  · rw [List.getLast?_eq_getElem?, h.len, Nat.add_sub_cancel, h.offset (Nat.le_refl _), h.tgt, List.length_map,
      List.take_length]

theorem Rows.row {g : Csr α} {rows} (h : g.Rows rows) {u : Nat} (hu : u < rows.length) :
    g.row u = .ok rows[u] := by
  rw [row_of_bounds h.wf.attrs (h.offset (by omega)) (h.offset (by omega))
    (take_flatten_length_mono _ (by omega)) (by rw [h.tgt, List.length_map]; exact take_flatten_length_le _ _),
    h.edges, slice_flatten _ _ hu]

theorem slices_flatten {β : Type} (l : List β) (ind : List Nat) (n : Nat) (hn : n + 1 = ind.length)
    (h0 : ind[0] = 0) (hm : ind.Pairwise (· ≤ ·)) :
    ∀ k (hk : k ≤ n), (((List.range n).map fun u => slice l (ind.getD u 0) (ind.getD (u + 1) 0)).take k).flatten
      = l.take (ind[k]) := by
  intro k hk
  have gd : ∀ u (hu : u < ind.length), ind.getD u 0 = ind[u] := fun u hu => by
    rw [List.getD_eq_getElem?_getD, List.getElem?_eq_getElem hu]; rfl
  induction k with
  | zero => simp [h0]
  | succ k ih =>
    rw [flatten_take_succ _ _ (by simp; omega), ih (by omega)]
    have h1 : ind[k] ≤ ind[k + 1] := List.pairwise_iff_getElem.1 hm k (k + 1) (by omega) (by omega) (by omega)
    simp only [List.getElem_map, List.getElem_range, gd k (by omega), gd (k + 1) (by omega), slice]
    rw [← List.take_append_drop ind[k] (l.take ind[k + 1])]
    rw [List.take_take, Nat.min_eq_left h1, List.drop_take]

/-- Every well-formed structure is described by its rows. -/
theorem Wf.rows {g : Csr α} (h : g.Wf) : ∃ rows, g.Rows rows := by
  have hne : 0 < g.indices.length := List.length_pos_iff.2 h.ne
  obtain ⟨n, hn⟩ : ∃ n, n + 1 = g.indices.length := ⟨g.indices.length - 1, by omega⟩
  have h0 : g.indices[0] = 0 := by
    have := h.first; rw [List.getElem?_eq_getElem hne] at this; simpa using this
  have hlast : g.indices[n] = g.tgt.length := by
    have := h.last
    rw [List.getLast?_eq_getElem?, ← hn, Nat.add_sub_cancel, List.getElem?_eq_getElem (by omega)] at this
    simpa using this
  have hel : g.edges.length = g.tgt.length := by simp [Csr.edges, h.attrs]
  have hs := slices_flatten g.edges g.indices n hn h0 h.mono
  let rows := (List.range n).map fun u => slice g.edges (g.indices.getD u 0) (g.indices.getD (u + 1) 0)
  have hrl : rows.length = n := by simp [rows]
  have hfl : rows.flatten = g.edges := by
    have := hs n (Nat.le_refl _)
    rw [List.take_of_length_le (by simp)] at this
    rw [this, hlast, ← hel, List.take_length]
  refine ⟨rows, ?_, ?_, ?_⟩
  · apply List.ext_getElem?
    intro i
    by_cases hi : i ≤ n
    · rw [offsets_rows rows i (by omega), hs i hi, List.getElem?_eq_getElem (by omega), List.length_take]
      have := h.getElem_le_size (i := i) (by omega)
      rw [Nat.min_eq_left (by omega)]
    · rw [List.getElem?_eq_none (by omega), List.getElem?_eq_none (by simp [inclusiveScan_length, rows]; omega)]
  · rw [hfl]
    have := h.attrs
    simp only [Csr.edges]
    rw [List.map_fst_zip (by omega)]
  · rw [hfl]
    have := h.attrs
    simp only [Csr.edges]
    rw [List.map_snd_zip (by omega)]

end Csr
end NW
