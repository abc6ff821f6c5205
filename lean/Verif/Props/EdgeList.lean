import Verif.Model.EdgeList
import Verif.Lemmas.ListRes

/-!
# C01, C02, C04: histories of an edge list

The histories are arbitrary sequences of the four mutating calls.  The specification is the list of
pushed tuples, `pushed ops`, in call order.
-/

namespace NW.EdgeList
variable {α : Type}

/-! ## Specification -/

/-- The tuples pushed by a history, in order. -/
def pushed : List (Op α) → List (Nat × Nat × α)
  | [] => []
  | .pushBack i j a :: ops => (i, j, a) :: pushed ops
  | .pushElem i j a :: ops => (i, j, a) :: pushed ops
  | _ :: ops => pushed ops

/-- All vertex ids of a history fit the vertex id type of `w` bits. -/
def IdsFit (w : Nat) (ops : List (Op α)) : Prop :=
  ∀ x ∈ pushed ops, x.1 < 2 ^ w ∧ x.2.1 < 2 ^ w

/-- The number of vertices implied by a list of edges and an initial size. -/
def impliedSize (n : Nat) (es : List (Nat × Nat × α)) : Nat :=
  es.foldl (fun m x => max m (max (x.1 + 1) (x.2.1 + 1))) n

/-- A history that makes no component-wise push while the list is closed (`o`: open at the start). -/
def PushesOpen : Bool → List (Op α) → Prop
  | _, [] => True
  | _, .openForPushBack :: ops => PushesOpen true ops
  | _, .closeForPushBack :: ops => PushesOpen false ops
  | o, .pushBack _ _ _ :: ops => o = true ∧ PushesOpen o ops
  | o, .pushElem _ _ _ :: ops => PushesOpen o ops

/-! ## Helper lemmas -/

/-- The columns have equal length; kept by every call. -/
def Wf (el : EdgeList α) : Prop :=
  el.col1.length = el.col0.length ∧ el.attrs.length = el.col0.length

/-- The stored tuples. -/
def contents (el : EdgeList α) : List (Nat × Nat × α) := el.col0.zip (el.col1.zip el.attrs)

theorem at_of_wf {el : EdgeList α} (h : el.Wf) {k : Nat} (hk : k < el.size) :
    el.at k = .ok (el.contents[k]'(by simp [contents, size] at *; obtain ⟨h1, h2⟩ := h; omega)) := by
  have h0 : k < el.col0.length := hk
  have h1 : k < el.col1.length := h.1 ▸ h0
  have h2 : k < el.attrs.length := h.2 ▸ h0
  simp [EdgeList.at, vget_of_lt h0, vget_of_lt h1, vget_of_lt h2, contents]

theorem elems_of_wf {el : EdgeList α} (h : el.Wf) : el.elems = .ok el.contents := by
  refine mapM_range_eq ?_ ?_
  · simp [contents, size]; obtain ⟨h1, h2⟩ := h; omega
  · intro k hk
    exact at_of_wf h hk

theorem contents_length {el : EdgeList α} (h : el.Wf) : el.contents.length = el.size := by
  simp [contents, size]; obtain ⟨h1, h2⟩ := h; omega

theorem appendCols_contents {el : EdgeList α} (h : el.Wf) (i j : Nat) (a : α) :
    (el.appendCols i j a).contents = el.contents ++ [(i, j, a)] := by
  obtain ⟨h1, h2⟩ := h
  simp only [contents, appendCols]
  rw [List.zip_append (by omega), List.zip_append (by simp; omega)]
  rfl

theorem appendCols_wf {el : EdgeList α} (h : el.Wf) (i j : Nat) (a : α) :
    (el.appendCols i j a).Wf := by
  obtain ⟨h1, h2⟩ := h
  constructor <;> simp [appendCols] <;> omega

theorem exec_ok {w : Nat} {el el' : EdgeList α} {op : Op α} (h : el.Wf) (he : exec w el op = .ok el') :
    el'.Wf ∧ el'.contents = el.contents ++
      (pushed [op]).map (fun x => (x.1 % 2 ^ w, x.2.1 % 2 ^ w, x.2.2)) := by
  cases op with
  | openForPushBack => cases he; exact ⟨h, by simp [pushed, contents, openForPushBack]⟩
  | closeForPushBack => cases he; exact ⟨h, by simp [pushed, contents, closeForPushBack]⟩
  | pushElem i j a =>
    cases he
    exact ⟨appendCols_wf (el := { el with card := _ }) h _ _ _,
      appendCols_contents (el := { el with card := _ }) h _ _ _⟩
  | pushBack i j a =>
    simp only [exec, pushBack, check] at he
    split at he
    · cases he
      exact ⟨appendCols_wf (el := { el with card := _ }) h _ _ _,
        appendCols_contents (el := { el with card := _ }) h _ _ _⟩
    · cases he

theorem run_ok {w : Nat} {ops : List (Op α)} {el el' : EdgeList α} (h : el.Wf)
    (he : run w el ops = .ok el') :
    el'.Wf ∧ el'.contents = el.contents ++
      (pushed ops).map (fun x => (x.1 % 2 ^ w, x.2.1 % 2 ^ w, x.2.2)) := by
  induction ops generalizing el with
  | nil => cases he; simp [h, pushed]
  | cons op ops ih =>
    simp only [run] at he
    cases hx : exec w el op with
    | error e => rw [hx] at he; cases he
    | ok el1 =>
      rw [hx] at he
      obtain ⟨w1, c1⟩ := exec_ok h hx
      obtain ⟨w2, c2⟩ := ih w1 he
      refine ⟨w2, ?_⟩
      rw [c2, c1]
      cases op <;> simp [pushed]

theorem map_mod_of_fit {w : Nat} {l : List (Nat × Nat × α)}
    (h : ∀ x ∈ l, x.1 < 2 ^ w ∧ x.2.1 < 2 ^ w) :
    l.map (fun x => (x.1 % 2 ^ w, x.2.1 % 2 ^ w, x.2.2)) = l := by
  conv => rhs; rw [← List.map_id l]
  apply List.map_congr_left
  intro x hx
  obtain ⟨h1, h2⟩ := h x hx
  simp [Nat.mod_eq_of_lt h1, Nat.mod_eq_of_lt h2]

/-! ## C01 -/

/-- C01. Whatever mixture of `open_for_push_back`, `close_for_push_back` and the two forms of `push_back`
is applied to a new edge list, if it runs to the end then the elements of the list, and each
element by index, are exactly the pushed tuples in order, and reading past them is the only read that fails. -/
theorem edgelist_records_pushes (w n : Nat) (ops : List (Op α)) (el : EdgeList α)
    (hfit : IdsFit w ops) (hrun : run w (new n) ops = .ok el) :
    el.size = (pushed ops).length ∧ el.elems = .ok (pushed ops) ∧
    (∀ k, el.at k = match (pushed ops)[k]? with
      | some x => .ok x
      | none => .error .outOfBounds) := by
  obtain ⟨hw, hc⟩ := run_ok (el := (new n : EdgeList α)) ⟨rfl, rfl⟩ hrun
  rw [map_mod_of_fit hfit] at hc
  have hc' : el.contents = pushed ops := by rw [hc]; rfl
  refine ⟨?_, ?_, ?_⟩
  · rw [← contents_length hw, hc']
  · rw [elems_of_wf hw, hc']
  · intro k
    by_cases hk : k < el.size
    · rw [at_of_wf hw hk]
      have : k < (pushed ops).length := by rw [← hc', contents_length hw]; exact hk
      simp [List.getElem?_eq_getElem this, hc']
    · have : (pushed ops).length ≤ k := by rw [← hc', contents_length hw]; omega
      rw [List.getElem?_eq_none this]
      have : el.col0.length ≤ k := by simpa [size] using hk
      simp [EdgeList.at, vget_of_ge this]

/-- C01, second half: a history runs to the end exactly when no component-wise push happens on a closed
list; otherwise the assertion aborts it. -/
theorem edgelist_history_aborts_iff (w : Nat) (ops : List (Op α)) (el : EdgeList α) :
    ((∃ el', run w el ops = .ok el') ↔ PushesOpen el.isOpen ops) ∧
    (¬ PushesOpen el.isOpen ops → run w el ops = .error .assertFailed) := by
  induction ops generalizing el with
  | nil => simp [run, PushesOpen]
  | cons op ops ih =>
    cases op with
    | openForPushBack => exact ih el.openForPushBack
    | closeForPushBack => exact ih el.closeForPushBack
    | pushElem i j a => exact ih (el.pushElem w i j a)
    | pushBack i j a =>
      simp only [run, exec, pushBack, PushesOpen]
      cases ho : el.isOpen with
      | false => simp [check]
      | true =>
        have := ih (appendCols { el with card := bumpCard w el.card (i % 2 ^ w) (j % 2 ^ w) } (i % 2 ^ w) (j % 2 ^ w) a)
        simp only [appendCols, ho] at this
        simp only [check, if_true, res_bind_ok, res_pure, true_and, appendCols]
        exact this

/-- The initializer-list constructor stores the listed tuples and leaves the list closed. -/
theorem edgelist_ofList (w : Nat) (l : List (Nat × Nat × α))
    (hfit : ∀ x ∈ l, x.1 < 2 ^ w ∧ x.2.1 < 2 ^ w) :
    (ofList w l).elems = .ok l ∧ (ofList w l).isOpen = false := by
  have key : ∀ (l : List (Nat × Nat × α)) (el : EdgeList α), el.Wf →
      (∀ x ∈ l, x.1 < 2 ^ w ∧ x.2.1 < 2 ^ w) →
      (l.foldl (fun el x => pushElem w el x.1 x.2.1 x.2.2) el).Wf ∧
      (l.foldl (fun el x => pushElem w el x.1 x.2.1 x.2.2) el).contents = el.contents ++ l := by
    intro l
    induction l with
    | nil => intro el h _; simp [h]
    | cons x xs ih =>
      intro el h hf
      have e : exec w el (.pushElem x.1 x.2.1 x.2.2) = .ok (pushElem w el x.1 x.2.1 x.2.2) := rfl
      obtain ⟨h1, h2⟩ := exec_ok h e
      obtain ⟨h3, h4⟩ := ih _ h1 (fun y hy => hf y (by simp [hy]))
      refine ⟨h3, ?_⟩
      rw [List.foldl_cons, h4, h2]
      obtain ⟨a1, a2⟩ := hf x (by simp)
      simp [pushed, Nat.mod_eq_of_lt a1, Nat.mod_eq_of_lt a2]
  obtain ⟨h1, h2⟩ := key l (openForPushBack ⟨0, false, [], [], []⟩) ⟨rfl, rfl⟩ hfit
  refine ⟨?_, rfl⟩
  have : (ofList w l).Wf := h1
  rw [elems_of_wf this]
  have : (ofList w l).contents = (openForPushBack ⟨0, false, [], [], []⟩ : EdgeList α).contents ++ l := h2
  rw [this]; rfl

/-- A concrete history with both kinds of push meets the hypotheses of `edgelist_records_pushes`. -/
example : ∃ el : EdgeList Nat,
    IdsFit 32 [Op.pushBack 3 5 70, .closeForPushBack, .pushElem 0 9 71, .openForPushBack, .pushBack 3 5 72] ∧
    run 32 (new 4) [Op.pushBack 3 5 70, .closeForPushBack, .pushElem 0 9 71, .openForPushBack, .pushBack 3 5 72]
      = .ok el := by
  refine ⟨⟨10, true, [3, 0, 3], [5, 9, 5], [70, 71, 72]⟩, ?_, by decide⟩
  simp [IdsFit, pushed]

/-- ... and one that aborts. -/
example : run 32 (new 4) [Op.closeForPushBack, .pushBack 3 5 70] = .error .assertFailed := by decide

/-! ## C02 -/

theorem impliedSize_ge (n : Nat) (es : List (Nat × Nat × α)) : n ≤ impliedSize n es := by
  unfold impliedSize
  induction es generalizing n with
  | nil => simp
  | cons x xs ih => rw [List.foldl_cons]; exact Nat.le_trans (Nat.le_max_left _ _) (ih _)

theorem impliedSize_gt (n : Nat) (es : List (Nat × Nat × α)) :
    ∀ x ∈ es, x.1 < impliedSize n es ∧ x.2.1 < impliedSize n es := by
  induction es generalizing n with
  | nil => simp
  | cons y ys ih =>
    intro x hx
    rcases List.mem_cons.1 hx with rfl | hx
    · have := impliedSize_ge (max n (max (x.1 + 1) (x.2.1 + 1))) ys
      unfold impliedSize at this ⊢
      rw [List.foldl_cons]
      constructor <;> omega
    · exact ih _ x hx

/-- C02 (partial: ids below the largest value of the vertex id type). After any history that runs to the end,
`num_vertices` is the maximum of the constructor's size and one more than every pushed id;
consequently every stored endpoint is a valid vertex id.
Missing for the full C02: pushes of the largest id `2 ^ w - 1`, for which the claim is false, see
`edgelist_cardinality_wraps`. -/
theorem edgelist_num_vertices_partial (w n : Nat) (ops : List (Op α)) (el : EdgeList α)
    (hn : n < 2 ^ w) (hfit : ∀ x ∈ pushed ops, x.1 + 1 < 2 ^ w ∧ x.2.1 + 1 < 2 ^ w)
    (hrun : run w (new n) ops = .ok el) :
    el.numVertices = impliedSize n (pushed ops) ∧
    ∀ k i j a, el.at k = .ok (i, j, a) → i < el.numVertices ∧ j < el.numVertices := by
  have key : ∀ (ops : List (Op α)) (el0 : EdgeList α), el0.card < 2 ^ w →
      (∀ x ∈ pushed ops, x.1 + 1 < 2 ^ w ∧ x.2.1 + 1 < 2 ^ w) →
      run w el0 ops = .ok el → el.card = impliedSize el0.card (pushed ops) := by
    intro ops
    induction ops with
    | nil => intro el0 _ _ h; cases h; rfl
    | cons op ops ih =>
      intro el0 hc hf h
      have push : ∀ (i j : Nat) (a : α) (el1 : EdgeList α),
          i + 1 < 2 ^ w → j + 1 < 2 ^ w →
          el1.card = bumpCard w el0.card (i % 2 ^ w) (j % 2 ^ w) →
          el1.card = max el0.card (max (i + 1) (j + 1)) ∧ el1.card < 2 ^ w := by
        intro i j a el1 hi hj he
        rw [Nat.mod_eq_of_lt (a := i) (by omega), Nat.mod_eq_of_lt (a := j) (by omega)] at he
        unfold bumpCard at he
        rw [Nat.mod_eq_of_lt (a := max i j + 1) (by omega), Nat.mod_eq_of_lt hc] at he
        omega
      cases op with
      | openForPushBack => exact ih el0.openForPushBack hc hf h
      | closeForPushBack => exact ih el0.closeForPushBack hc hf h
      | pushElem i j a =>
        obtain ⟨b1, b2⟩ := hf (i, j, a) (by simp [pushed])
        obtain ⟨c1, c2⟩ := push i j a (el0.pushElem w i j a) b1 b2 rfl
        have := ih _ c2 (fun x hx => hf x (by simp [pushed, hx])) h
        rw [this, c1]; rfl
      | pushBack i j a =>
        simp only [run, exec, pushBack, check] at h
        split at h
        · obtain ⟨b1, b2⟩ := hf (i, j, a) (by simp [pushed])
          simp only [res_bind_ok, res_pure] at h
          obtain ⟨c1, c2⟩ := push i j a (el0.pushElem w i j a) b1 b2 rfl
          have := ih (el0.pushElem w i j a) c2 (fun x hx => hf x (by simp [pushed, hx])) h
          rw [this, c1]; rfl
        · cases h
  have hcard := key ops (new n) hn hfit hrun
  have hfit' : IdsFit w ops := fun x hx => by have := hfit x hx; omega
  obtain ⟨_, _, h3⟩ := edgelist_records_pushes w n ops el hfit' hrun
  refine ⟨hcard, ?_⟩
  intro k i j a hk
  rw [h3 k] at hk
  cases hx : (pushed ops)[k]? with
  | none => rw [hx] at hk; cases hk
  | some x =>
    rw [hx] at hk
    cases hk
    have := impliedSize_gt n (pushed ops) _ (List.mem_of_getElem? hx)
    have hcard' : el.card = impliedSize n (pushed ops) := hcard
    simpa [numVertices, hcard'] using this

/-- C02 fails for the largest id: with 32-bit ids, pushing the edge (2^32 - 1, 0) onto a fresh list
leaves `num_vertices` at 0, although the edge is stored. -/
theorem edgelist_cardinality_wraps :
    ∃ el : EdgeList Unit, run 32 (new 0) [Op.pushBack (2 ^ 32 - 1) 0 ()] = .ok el ∧
      el.at 0 = .ok (2 ^ 32 - 1, 0, ()) ∧ el.numVertices = 0 :=
  ⟨⟨0, true, [2 ^ 32 - 1], [0], [()]⟩, by decide +kernel, by decide +kernel, rfl⟩

/-- The wrap happens at every width: the largest id is stored while the cardinality it implies is lost. -/
theorem edgelist_cardinality_wraps_every_width (w j : Nat) (hj : j < 2 ^ w) :
    ∃ el : EdgeList Unit, run w (new 0) [Op.pushBack (2 ^ w - 1) j ()] = .ok el ∧
      el.at 0 = .ok (2 ^ w - 1, j, ()) ∧ ¬ (2 ^ w - 1 < el.numVertices) := by
  refine ⟨_, rfl, ?_, ?_⟩
  · have h1 : (2 ^ w - 1) % 2 ^ w = 2 ^ w - 1 := Nat.mod_eq_of_lt (by omega)
    simp [appendCols, EdgeList.at, vget, new, h1, Nat.mod_eq_of_lt hj]
  · have h1 : (2 ^ w - 1) % 2 ^ w = 2 ^ w - 1 := Nat.mod_eq_of_lt (by omega)
    have h2 : max (2 ^ w - 1) j + 1 = 2 ^ w := by omega
    simp only [numVertices, appendCols, bumpCard, h1, Nat.mod_eq_of_lt hj, h2, new]
    simp

example : ∃ el : EdgeList Nat, (∀ x ∈ pushed [Op.pushBack 3 5 70, .pushElem 0 9 71],
      x.1 + 1 < 2 ^ 32 ∧ x.2.1 + 1 < 2 ^ 32) ∧
    run 32 (new 4) [Op.pushBack 3 5 70, .pushElem 0 9 71] = .ok el ∧ el.numVertices = 10 := by
  exact ⟨⟨10, true, [3, 0], [5, 9], [70, 71]⟩, by simp [pushed], by decide, rfl⟩

/-! ## C02, bipartite -/

end NW.EdgeList

namespace NW.BiEdgeList
variable {α : Type}

/-- Bipartite cardinalities: each side is bounded by its own column (ids below the largest value). -/
theorem biedgelist_num_vertices_partial (w m n : Nat) (es : List (Nat × Nat × α)) (hm : m < 2 ^ w)
    (hn : n < 2 ^ w) (hfit : ∀ x ∈ es, x.1 + 1 < 2 ^ w ∧ x.2.1 + 1 < 2 ^ w) :
    ∃ el, pushAll w (new m n) es = .ok el ∧ el.elems = .ok es ∧
      el.numVertices 0 = es.foldl (fun k x => max k (x.1 + 1)) m ∧
      el.numVertices 1 = es.foldl (fun k x => max k (x.2.1 + 1)) n := by
  have key : ∀ (es : List (Nat × Nat × α)) (el : BiEdgeList α), el.isOpen = true → el.card0 < 2 ^ w →
      el.card1 < 2 ^ w → (∀ x ∈ es, x.1 + 1 < 2 ^ w ∧ x.2.1 + 1 < 2 ^ w) →
      pushAll w el es = .ok
        { el with
          card0 := es.foldl (fun k x => max k (x.1 + 1)) el.card0
          card1 := es.foldl (fun k x => max k (x.2.1 + 1)) el.card1
          col0 := el.col0 ++ es.map (·.1), col1 := el.col1 ++ es.map (·.2.1)
          attrs := el.attrs ++ es.map (·.2.2) } := by
    intro es
    induction es with
    | nil => intro el _ _ _ _; simp [pushAll]
    | cons x xs ih =>
      intro el ho h0 h1 hf
      obtain ⟨b1, b2⟩ := hf x (by simp)
      simp only [pushAll, pushBack, check, ho, if_true, res_bind_ok, res_pure]
      rw [Nat.mod_eq_of_lt (a := x.1) (by omega), Nat.mod_eq_of_lt (a := x.2.1) (by omega),
        Nat.mod_eq_of_lt (a := x.1 + 1) (by omega), Nat.mod_eq_of_lt (a := x.2.1 + 1) (by omega),
        Nat.mod_eq_of_lt (a := el.card0) (by omega), Nat.mod_eq_of_lt (a := el.card1) (by omega)]
      rw [ih _ ?_ ?_ ?_ (fun y hy => hf y (by simp [hy]))]
      · simp [Nat.max_comm]
      · rfl
      · simp; omega
      · simp; omega
  refine ⟨_, key es (new m n) rfl hm hn hfit, ?_, rfl, rfl⟩
  refine mapM_range_eq ?_ ?_
  · simp [size, new]
  · intro k hk
    have hk' : k < es.length := by simpa [size, new] using hk
    simp [BiEdgeList.at, new, vget, hk']

example : (∀ x ∈ [(3, 5, 70), (0, 9, 71)], x.1 + 1 < 2 ^ 32 ∧ x.2.1 + 1 < 2 ^ 32) ∧
    (BiEdgeList.pushAll 32 (new 0 0) [(3, 5, 70), (0, 9, 71)]).toOption.map (·.card0) = some 4 := by
  decide

end NW.BiEdgeList

/-! ## C04 -/

namespace NW.EdgeList
variable {α : Type}

/-- C04 fails: a list compares equal to a longer list that extends it ... -/
theorem edgelist_eq_prefix :
    ∃ a b : EdgeList Unit, a.Wf ∧ b.Wf ∧ beq a b = .ok true ∧ a.elems ≠ b.elems :=
  ⟨⟨3, false, [0], [2], [()]⟩, ⟨3, false, [0, 1], [2, 1], [(), ()]⟩, ⟨rfl, rfl⟩, ⟨rfl, rfl⟩,
    by decide, by decide⟩

/-- ... and comparing a longer list with a shorter one of the same cardinality reads out of bounds. -/
theorem edgelist_eq_oob :
    ∃ a b : EdgeList Unit, a.Wf ∧ b.Wf ∧ beq a b = .error .outOfBounds :=
  ⟨⟨3, false, [0, 1], [2, 1], [(), ()]⟩, ⟨3, false, [0], [2], [()]⟩, ⟨rfl, rfl⟩, ⟨rfl, rfl⟩, by decide⟩

/-- C04 (partial: only for lists of equal length). For lists with equally many edges `==` is exact.
Missing for the full C04: lists of different length, where the claim is false
(`edgelist_eq_prefix`, `edgelist_eq_oob`); `edgelist_eq_characterised` says what happens there. -/
theorem edgelist_eq_exact_partial [DecidableEq α] (a b : EdgeList α) (ha : a.Wf) (hb : b.Wf)
    (hlen : a.size = b.size) :
    beq a b = .ok (decide (a.numVertices = b.numVertices ∧ a.elems = b.elems)) := by
  have hbe : (List.range a.size).mapM b.at = b.elems := by rw [hlen]; rfl
  unfold beq
  rw [hbe, elems_of_wf ha, elems_of_wf hb]
  by_cases hc : a.card = b.card
  · simp [hc, hlen, numVertices]
  · simp [hc, numVertices]

/-- What `==` decides for arbitrary lists: the cardinalities agree and `a` is a prefix of `b`; it is undefined
when `b` is shorter than `a` (and the cardinalities agree). -/
theorem edgelist_eq_characterised [DecidableEq α] (a b : EdgeList α) (ha : a.Wf) (hb : b.Wf) :
    ∃ xs ys, a.elems = .ok xs ∧ b.elems = .ok ys ∧
    (beq a b = .ok true ↔ a.numVertices = b.numVertices ∧ xs <+: ys) ∧
    (beq a b = .error .outOfBounds ↔ a.numVertices = b.numVertices ∧ ys.length < xs.length) := by
  refine ⟨a.contents, b.contents, elems_of_wf ha, elems_of_wf hb, ?_⟩
  have la := contents_length ha
  have lb := contents_length hb
  unfold beq
  by_cases hc : a.card = b.card
  · by_cases hl : b.size < a.size
    · simp only [hc, hl, if_true, numVertices, true_and]
      refine ⟨⟨fun h => (by simp at h), fun h => ?_⟩, ⟨fun _ => by omega, fun _ => trivial⟩⟩
      have := h.length_le
      omega
    · have hm : (List.range a.size).mapM b.at = .ok (b.contents.take a.size) := by
        refine mapM_range_eq ?_ ?_
        · simp; omega
        · intro k hk
          rw [at_of_wf hb (by omega)]
          simp
      simp only [hc, hl, if_true, if_false, elems_of_wf ha, hm, numVertices, true_and, res_bind_ok, res_pure]
      constructor
      · rw [List.prefix_iff_eq_take, la]; simp
      · simp; omega
  · simp [hc, numVertices]

example : (⟨3, false, [0, 1], [2, 1], [7, 8]⟩ : EdgeList Nat).Wf ∧
    beq (⟨3, false, [0, 1], [2, 1], [7, 8]⟩ : EdgeList Nat) ⟨3, true, [0, 1], [2, 1], [7, 8]⟩ = .ok true ∧
    beq (⟨3, false, [0, 1], [2, 1], [7, 8]⟩ : EdgeList Nat) ⟨3, true, [0, 1], [2, 1], [7, 9]⟩ = .ok false :=
  ⟨⟨rfl, rfl⟩, by decide, by decide⟩

end NW.EdgeList
