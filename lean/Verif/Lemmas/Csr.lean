import Verif.Model.Csr
import Verif.Lemmas.ListRes

/-! Helper lemmas: increments, scans, slices of key-sorted lists, rows of a compressed structure. -/

namespace NW

/-! ### vectors -/

@[simp] theorem vresize_length {β : Type} (v : List β) (n : Nat) (d : β) : (vresize v n d).length = n := by
  simp [vresize]; omega

theorem vcopy_of_le {β : Type} {v : List β} {k : Nat} {xs : List β} (h : k + xs.length ≤ v.length) :
    vcopy v k xs = .ok (v.take k ++ xs ++ v.drop (k + xs.length)) := by
  simp [vcopy, h]

theorem vcopy_all {β : Type} {v xs : List β} (h : xs.length = v.length) : vcopy v 0 xs = .ok xs := by
  rw [vcopy_of_le (by omega)]
  simp [h]

theorem vincr_of_lt {v : List Nat} {i : Nat} (h : i < v.length) :
    vincr v i = .ok (v.set i (v[i] + 1)) := by
  simp [vincr, vget_of_lt h, vset_of_lt h]

theorem vincr_length {v v' : List Nat} {i : Nat} (h : vincr v i = .ok v') : v'.length = v.length := by
  by_cases hi : i < v.length
  · rw [vincr_of_lt hi] at h; cases h; simp
  · simp [vincr, vget_of_ge (Nat.le_of_not_lt hi)] at h

/-- Increments in bounds succeed, and entry `u` grows by the number of occurrences of `u`. -/
theorem vincrAll_ok {is : List Nat} {v : List Nat} (h : ∀ i ∈ is, i < v.length) :
    ∃ v', vincrAll v is = .ok v' ∧ v'.length = v.length ∧
      ∀ u (hu : u < v.length), v'[u]? = some (v[u] + is.count u) := by
  induction is generalizing v with
  | nil => exact ⟨v, rfl, rfl, fun u hu => by simp [hu]⟩
  | cons i is ih =>
    have hi := h i (by simp)
    obtain ⟨v', h1, h2, h3⟩ := ih (v := v.set i (v[i] + 1)) (fun j hj => by simpa using h j (by simp [hj]))
    refine ⟨v', ?_, by simpa using h2, ?_⟩
    · simp [vincrAll, vincr_of_lt hi, h1]
    · intro u hu
      rw [h3 u (by simpa using hu), List.count_cons]
      by_cases hiu : i = u
      · subst hiu; simp; omega
      · rw [List.getElem_set_ne hiu]; simp [hiu]

/-- An increment out of bounds is a fault, whatever else is in the sequence. -/
theorem vincrAll_oob {is : List Nat} {v : List Nat} (h : ∃ i ∈ is, v.length ≤ i) :
    vincrAll v is = .error .outOfBounds := by
  induction is generalizing v with
  | nil => simp at h
  | cons i is ih =>
    by_cases hi : i < v.length
    · simp only [vincrAll, vincr_of_lt hi, res_bind_ok]
      apply ih
      obtain ⟨j, hj, hl⟩ := h
      rcases List.mem_cons.1 hj with rfl | hj
      · omega
      · exact ⟨j, hj, by simpa using hl⟩
    · simp [vincrAll, vincr, vget_of_ge (Nat.le_of_not_lt hi)]

theorem vincrAll_counts {is : List Nat} {n : Nat} (h : ∀ i ∈ is, i < n) :
    vincrAll (List.replicate n 0) is = .ok ((List.range n).map fun u => is.count u) := by
  obtain ⟨v', h1, h2, h3⟩ := vincrAll_ok (v := List.replicate n 0) (is := is) (by simpa using h)
  rw [h1]
  congr 1
  apply List.ext_getElem?
  intro u
  by_cases hu : u < n
  · rw [h3 u (by simpa using hu)]; simp [hu]
  · rw [List.getElem?_eq_none (by simp at h2; omega), List.getElem?_eq_none (by simp; omega)]

/-! ### scans -/

theorem inclusiveScan_length (acc : Nat) (l : List Nat) : (inclusiveScan acc l).length = l.length := by
  induction l generalizing acc with
  | nil => rfl
  | cons x xs ih => simp [inclusiveScan, ih]

theorem inclusiveScan_getElem? (acc : Nat) (l : List Nat) (i : Nat) (h : i < l.length) :
    (inclusiveScan acc l)[i]? = some (acc + (l.take (i + 1)).sum) := by
  induction l generalizing acc i with
  | nil => simp at h
  | cons x xs ih =>
    cases i with
    | zero => simp [inclusiveScan]
    | succ i =>
      simp only [inclusiveScan, List.getElem?_cons_succ]
      rw [ih (acc + x) i (by simpa using h)]
      simp [Nat.add_assoc]

theorem exclusiveScan_length (acc : Nat) (l : List Nat) : (exclusiveScan acc l).length = l.length := by
  induction l generalizing acc with
  | nil => rfl
  | cons x xs ih => simp [exclusiveScan, ih]

theorem exclusiveScan_getElem? (acc : Nat) (l : List Nat) (i : Nat) (h : i < l.length) :
    (exclusiveScan acc l)[i]? = some (acc + (l.take i).sum) := by
  induction l generalizing acc i with
  | nil => simp at h
  | cons x xs ih =>
    cases i with
    | zero => simp [exclusiveScan]
    | succ i =>
      simp only [exclusiveScan, List.getElem?_cons_succ]
      rw [ih (acc + x) i (by simpa using h)]
      simp [Nat.add_assoc]

/-! ### slices of key-sorted lists -/

/-- `l[b .. e)`. -/
def slice {β : Type} (l : List β) (b e : Nat) : List β := (l.drop b).take (e - b)

theorem slice_map {β γ : Type} (f : β → γ) (l : List β) (b e : Nat) :
    slice (l.map f) b e = (slice l b e).map f := by
  simp [slice, List.map_drop, List.map_take]

/-- Number of entries with key below `u`. -/
def below {β : Type} (key : β → Nat) (l : List β) (u : Nat) : Nat := (l.filter fun x => decide (key x < u)).length

theorem below_mono {β : Type} (key : β → Nat) (l : List β) {u v : Nat} (h : u ≤ v) :
    below key l u ≤ below key l v := by
  unfold below
  induction l with
  | nil => simp
  | cons x xs ih =>
    simp only [List.filter_cons]
    by_cases h1 : key x < u
    · have : key x < v := by omega
      simp [h1, this]; exact ih
    · by_cases h2 : key x < v
      · simp [h1, h2]; omega
      · simp [h1, h2]; exact ih

theorem below_le {β : Type} (key : β → Nat) (l : List β) (u : Nat) : below key l u ≤ l.length :=
  List.length_filter_le _ _

theorem below_all {β : Type} (key : β → Nat) (l : List β) {n : Nat} (h : ∀ x ∈ l, key x < n) :
    below key l n = l.length := by
  unfold below
  rw [List.filter_eq_self.2 (by simpa using h)]

theorem below_succ {β : Type} (key : β → Nat) (l : List β) (u : Nat) :
    below key l (u + 1) = below key l u + (l.map key).count u := by
  unfold below
  induction l with
  | nil => simp
  | cons x xs ih =>
    simp only [List.filter_cons, List.map_cons, List.count_cons]
    by_cases h1 : key x < u
    · have h2 : key x < u + 1 := by omega
      have h3 : ¬ key x = u := by omega
      simp [h1, h2, h3, ih]; omega
    · by_cases h3 : key x = u
      · simp [h3, ih]; omega
      · have h2 : ¬ key x < u + 1 := by omega
        simp [h1, h2, h3, ih]

theorem sorted_split {β : Type} (key : β → Nat) (l : List β) (u : Nat)
    (hs : l.Pairwise fun a b => key a ≤ key b) :
    l = l.filter (fun x => decide (key x < u)) ++ l.filter (fun x => decide (u ≤ key x)) := by
  induction l with
  | nil => rfl
  | cons x xs ih =>
    rw [List.pairwise_cons] at hs
    by_cases h : key x < u
    · have h' : ¬ u ≤ key x := by omega
      simp only [List.filter_cons, h, h', decide_true, decide_false, if_true]
      simp only [Bool.false_eq_true, if_false, List.cons_append]
      congr 1
      exact ih hs.2
    · have h' : u ≤ key x := by omega
      have e1 : xs.filter (fun x => decide (key x < u)) = [] := by
        rw [List.filter_eq_nil_iff]
        intro a ha
        have := hs.1 a ha
        simp; omega
      have e2 : xs.filter (fun x => decide (u ≤ key x)) = xs := by
        rw [List.filter_eq_self]
        intro a ha
        have := hs.1 a ha
        simp; omega
      simp [h, h', e1, e2]

theorem drop_of_eq_append {β : Type} {l a b : List β} {k : Nat} (h : l = a ++ b) (hk : k = a.length) :
    l.drop k = b := by
  subst h; subst hk; exact List.drop_left

theorem take_of_eq_append {β : Type} {l a b : List β} {k : Nat} (h : l = a ++ b) (hk : k = a.length) :
    l.take k = a := by
  subst h; subst hk; exact List.take_left

@[simp] theorem below_zero {β : Type} (key : β → Nat) (l : List β) : below key l 0 = 0 := by
  have : l.filter (fun _ => false) = [] := by simp
  simp [below, this]

/-- The slice of a key-sorted list between the positions of `u` and `u + 1` is the entries with key `u`. -/
theorem slice_sorted {β : Type} (key : β → Nat) (l : List β) (u : Nat)
    (hs : l.Pairwise fun a b => key a ≤ key b) :
    slice l (below key l u) (below key l (u + 1)) = l.filter fun x => decide (key x = u) := by
  have h1 := sorted_split key l u hs
  have hd : l.drop (below key l u) = l.filter fun x => decide (u ≤ key x) :=
    drop_of_eq_append h1 rfl
  have hs2 : (l.filter fun x => decide (u ≤ key x)).Pairwise fun a b => key a ≤ key b := hs.filter _
  have h2 := sorted_split key _ (u + 1) hs2
  have hlen : below key l (u + 1) - below key l u =
      ((l.filter fun x => decide (u ≤ key x)).filter fun x => decide (key x < u + 1)).length := by
    have := congrArg (fun l' => below key l' (u + 1)) h1
    simp only [below, List.filter_append, List.length_append, List.filter_filter] at this ⊢
    have e : (l.filter fun x => decide (key x < u + 1) && decide (key x < u)).length =
        (l.filter fun x => decide (key x < u)).length := by
      congr 2
      funext x
      rw [Bool.eq_iff_iff]; simp; omega
    omega
  unfold slice
  rw [hd, take_of_eq_append h2 hlen, List.filter_filter]
  apply List.filter_congr
  intro x _
  rw [Bool.eq_iff_iff]; simp; omega

theorem count_sum_below {β : Type} (key : β → Nat) (l : List β) (n u : Nat) (hu : u ≤ n) :
    (((List.range n).map fun v => (l.map key).count v).take u).sum = below key l u := by
  induction u with
  | zero => simp
  | succ u ih =>
    rw [List.take_add_one, List.sum_append, ih (by omega), below_succ]
    congr 1
    rw [List.getElem?_eq_getElem (by simp; omega)]
    simp

/-! ### well-formed compressed structures -/

/-- The representation invariant: offsets start at 0, do not decrease, end at the number of edges, and every
edge has an attribute tuple. -/
structure Csr.Wf {α : Type} (g : Csr α) : Prop where
  ne : g.indices ≠ []
  first : g.indices[0]? = some 0
  mono : g.indices.Pairwise (· ≤ ·)
  last : g.indices.getLast? = some g.tgt.length
  attrs : g.attrs.length = g.tgt.length

namespace Csr
variable {α : Type}

/-- The edges in storage order. -/
def edges (g : Csr α) : List (Nat × α) := g.tgt.zip g.attrs

theorem edgeAt_of_lt {g : Csr α} (h : g.attrs.length = g.tgt.length) {k : Nat} (hk : k < g.tgt.length) :
    g.edgeAt k = .ok (g.edges[k]'(by simp [edges]; omega)) := by
  have h2 : k < g.attrs.length := by omega
  simp [edgeAt, vget_of_lt hk, vget_of_lt h2, edges]

theorem mapM_edgeAt {g : Csr α} (h : g.attrs.length = g.tgt.length) {b e : Nat} (hbe : b ≤ e)
    (he : e ≤ g.tgt.length) :
    (List.range' b (e - b)).mapM g.edgeAt = .ok (slice g.edges b e) := by
  have hl : (slice g.edges b e).length = e - b := by simp [slice, edges]; omega
  have : List.range' b (e - b) = (List.range (e - b)).map (b + ·) := by
    rw [List.range_eq_range', List.map_add_range']; simp
  rw [this, List.mapM_map]
  refine mapM_range_eq hl ?_
  intro k hk
  simp only [Function.comp]
  rw [edgeAt_of_lt h (by omega)]
  simp [slice]

theorem row_of_bounds {g : Csr α} (h : g.attrs.length = g.tgt.length) {u b e : Nat}
    (hb : g.indices[u]? = some b) (he : g.indices[u + 1]? = some e) (hbe : b ≤ e) (hel : e ≤ g.tgt.length) :
    g.row u = .ok (slice g.edges b e) := by
  have h1 : vget g.indices u = .ok b := vget_eq_ok.2 hb
  have h2 : vget g.indices (u + 1) = .ok e := vget_eq_ok.2 he
  have h3 : ¬ b > e := by omega
  simp [row, rowBounds, h1, h2, h3, mapM_edgeAt h hbe hel]

theorem row_oob {g : Csr α} {u : Nat} (h : g.numVertices ≤ u) : g.row u = .error .outOfBounds := by
  unfold numVertices at h
  unfold row rowBounds
  cases hb : vget g.indices u with
  | error e =>
    have : e = .outOfBounds := by
      unfold vget at hb; split at hb <;> simp_all
    simp [this]
  | ok b =>
    rw [vget_of_ge (v := g.indices) (i := u + 1) (by omega)]
    rfl

theorem Wf.getElem_le {g : Csr α} (hg : g.Wf) {i j : Nat} (hij : i ≤ j) (hj : j < g.indices.length) :
    g.indices[i]'(by omega) ≤ g.indices[j] := by
  rcases Nat.lt_or_ge i j with h | h
  · exact List.pairwise_iff_getElem.1 hg.mono i j (by omega) hj h
  · have : i = j := by omega
    subst this; exact Nat.le_refl _

theorem Wf.getElem_le_size {g : Csr α} (hg : g.Wf) {i : Nat} (hi : i < g.indices.length) :
    g.indices[i] ≤ g.tgt.length := by
  have hl := hg.last
  rw [List.getLast?_eq_getElem?] at hl
  have h1 : g.indices.length - 1 < g.indices.length := by omega
  rw [List.getElem?_eq_getElem h1] at hl
  have := hg.getElem_le (i := i) (j := g.indices.length - 1) (by omega) h1
  simp at hl; omega

/-- In a well-formed structure the row of a vertex is the slice between its offsets. -/
theorem Wf.row {g : Csr α} (hg : g.Wf) {u : Nat} (hu : u < g.numVertices) :
    g.row u = .ok (slice g.edges (g.indices[u]'(by unfold numVertices at hu; omega))
      (g.indices[u + 1]'(by unfold numVertices at hu; omega))) := by
  unfold numVertices at hu
  exact row_of_bounds hg.attrs (List.getElem?_eq_getElem (by omega)) (List.getElem?_eq_getElem (by omega))
    (hg.getElem_le (by omega) (by omega)) (hg.getElem_le_size (by omega))

end Csr

/-! ### counting sort: a structure whose edge column is key-sorted and whose offsets count keys -/

namespace Csr
variable {α : Type}

/-- Offsets `0, c 0, c 0 + c 1, ...` for the key counts of `z`. -/
theorem offsets_getElem? {β : Type} (key : β → Nat) (z : List β) (n u : Nat) (hu : u ≤ n) :
    ((0 :: inclusiveScan 0 ((List.range n).map fun v => (z.map key).count v)) : List Nat)[u]? =
      some (below key z u) := by
  cases u with
  | zero => simp
  | succ u =>
    rw [List.getElem?_cons_succ, inclusiveScan_getElem? _ _ _ (by simp; omega), count_sum_below _ _ _ _ hu]
    simp

/-- The structure built from key-sorted triples: row `u` is the triples with key `u`. -/
theorem counting_sort {z : List (Nat × Nat × α)} {n : Nat} {g : Csr α}
    (hs : z.Pairwise fun a b => a.1 ≤ b.1) (hk : ∀ x ∈ z, x.1 < n)
    (hi : g.indices = 0 :: inclusiveScan 0 ((List.range n).map fun v => (z.map (·.1)).count v))
    (ht : g.tgt = z.map (·.2.1)) (ha : g.attrs = z.map (·.2.2)) :
    g.Wf ∧ g.numVertices = n ∧
      ∀ u, u < n → g.row u = .ok ((z.filter fun x => decide (x.1 = u)).map (·.2)) := by
  have hlen : g.indices.length = n + 1 := by rw [hi]; simp [inclusiveScan_length]
  have hget : ∀ u, u ≤ n → g.indices[u]? = some (below (·.1) z u) := by
    intro u hu; rw [hi]; exact offsets_getElem? _ _ _ _ hu
  have hal : g.attrs.length = g.tgt.length := by rw [ha, ht]; simp
  refine ⟨⟨by rw [hi]; simp, by rw [hi]; simp, ?_, ?_, hal⟩, by simp [numVertices, hlen], ?_⟩
  · rw [List.pairwise_iff_getElem]
    intro i j hi' hj hij
    have e1 := hget i (by omega)
    have e2 := hget j (by omega)
    rw [List.getElem?_eq_getElem hi'] at e1
    rw [List.getElem?_eq_getElem hj] at e2
    injection e1 with e1
    injection e2 with e2
    rw [e1, e2]
    exact below_mono _ _ (by omega)
  · rw [List.getLast?_eq_getElem?, hlen, Nat.add_sub_cancel, hget n (Nat.le_refl _), ht,
      below_all (·.1) z hk]
    simp
  · intro u hu
    have hed : g.edges = z.map (·.2) := by
      rw [edges, ht, ha]
      apply List.ext_getElem
      · simp
      · intro i h1 h2; simp
    rw [row_of_bounds hal (hget u (by omega)) (hget (u + 1) (by omega)) (below_mono _ _ (by omega))
      (by rw [ht, List.length_map]; exact below_le _ _ _), hed, slice_map, slice_sorted _ _ _ hs]

theorem keySort_sorted {srt : List (Nat × Nat × α) → List (Nat × Nat × α)} (h : IsSort keyLt srt)
    (l : List (Nat × Nat × α)) : (srt l).Pairwise fun a b => a.1 ≤ b.1 :=
  (h.sorted l).imp (fun hab => by simpa [keyLt] using hab)

end Csr

end NW
