import Verif.Model.ApbExec
import Verif.Props.Apb
import Mathlib.Algebra.Ring.Int.Defs

/-!
# C139: the benchmark of execution policies, apb/exec.cpp

The product of the matrix and the vector is written out: entry `i` is the sum over the stored entries of row `i`.
-/

namespace NW.ApbExec
open Spec

variable {R : Type}

/-- The sum over the entries of a row. -/
def rowSum [CommSemiring R] (x : List R) (r : List (Nat × R)) : R := (r.map fun e => e.2 * x.getD e.1 0).sum

section
variable [CommSemiring R]

theorem GenSum.eq {xs : List R} {r : R} (h : GenSum xs r) : r = xs.sum := by
  induction h with
  | one a => simp
  | split h _ _ ih1 ih2 => rw [h.sum_eq, List.sum_append, ih1, ih2]

theorem GenSum.exists (a : R) (xs : List R) : ∃ r, GenSum (a :: xs) r := by
  induction xs generalizing a with
  | nil => exact ⟨a, .one a⟩
  | cons b xs ih =>
    obtain ⟨r, hr⟩ := ih b
    exact ⟨a + r, .split (ys := [a]) (zs := b :: xs) (List.Perm.refl _) (.one a) hr⟩

omit [CommSemiring R] in
theorem rawRow_eq (g : Csr R) (i : Nat) : rawRow g i = g.row i := by
  unfold rawRow Csr.row Csr.rowBounds
  cases vget g.indices i with
  | error f => rfl
  | ok b =>
    cases vget g.indices (i + 1) with
    | error f => rfl
    | ok e =>
      simp only [res_bind_ok, res_pure]
      by_cases c : b > e
      · rw [if_pos c, show e - b = 0 by omega, show e - e = 0 by omega]; rfl
      · rw [if_neg c]

theorem vget_getD {x : List R} {i : Nat} (h : i < x.length) : vget x i = .ok (x.getD i 0) := by
  rw [vget_of_lt h, List.getD_eq_getElem?_getD, List.getElem?_eq_getElem h]; rfl

theorem addTo_ok {y : List R} {i : Nat} (h : i < y.length) (r : R) : addTo y i r = .ok (y.set i (y.getD i 0 + r)) := by
  unfold addTo
  rw [vget_getD h, res_bind_ok, vset_of_lt h]

theorem getD_set {y : List R} {i j : Nat} {a : R} (h : i < y.length) : (y.set i a).getD j 0 = if j = i then a else y.getD j 0 := by
  rw [List.getD_eq_getElem?_getD, List.getD_eq_getElem?_getD, List.getElem?_set]
  by_cases c : i = j
  · subst c; simp [h]
  · rw [if_neg c, if_neg (Ne.symm c)]

theorem addRow_ok {x : List R} {k : Nat} : ∀ (r : List (Nat × R)) (y : List R), k < y.length → (∀ e ∈ r, e.1 < x.length) → addRow x k r y = .ok (y.set k (y.getD k 0 + rowSum x r))
  | [], y, hk, _ => by
    simp [addRow, rowSum]
    apply List.ext_getElem?
    intro i
    rw [List.getElem?_set]
    split
    · rename_i h; subst h; simp [hk]
    · rfl
  | e :: r, y, hk, h => by
    have h1 : e.1 < x.length := h e (by simp)
    have ih := addRow_ok r (y.set k (y.getD k 0 + x.getD e.1 0 * e.2)) (by simpa using hk) fun e he => h e (by simp [he])
    unfold addRow at ih ⊢
    rw [List.foldlM_cons]
    simp only [product, vget_getD h1, res_bind_ok, res_pure, addTo_ok hk]
    simp only [product, res_pure] at ih
    rw [ih, getD_set hk, if_pos rfl, List.set_set]
    congr 2
    simp only [rowSum]
    rw [List.map_cons, List.sum_cons, add_assoc, mul_comm (x.getD e.1 0)]

/-- Positions treated in any order, each once. -/
theorem each_once {n : Nat} {f : List R → Nat → Run (List R)} {v : Nat → R}
    (hf : ∀ y i, i < n → y.length = n → Run.Gives (f y i) (· = y.set i (y.getD i 0 + v i))) {l : List Nat} (hl : l.Perm (List.range n)) :
    Run.Gives (l.foldlM f (List.replicate n 0)) (· = (List.range n).map v) := by
  have hnd : l.Nodup := hl.nodup_iff.2 List.nodup_range
  refine (Run.gives_foldlM (fun pre y => y.length = n ∧ ∀ i, i < n → y.getD i 0 = if i ∈ pre then v i else 0) ⟨by simp, fun i hi => by simp [List.getD_eq_getElem?_getD, hi]⟩ ?_).mono ?_
  · rintro pre i post rfl y ⟨h1, h2⟩
    have hi : i < n := List.mem_range.1 (hl.mem_iff.1 (by simp))
    have hnot : i ∉ pre := by
      intro h
      have := (List.nodup_append.1 hnd).2.2 i h i (by simp)
      exact this rfl
    refine (hf y i hi h1).mono ?_
    rintro _ rfl
    refine ⟨by simpa using h1, fun j hj => ?_⟩
    rw [getD_set (by omega)]
    by_cases c : j = i
    · subst c
      rw [if_pos rfl, h2 j hj, if_neg hnot, zero_add, if_pos (by simp)]
    · rw [if_neg c, h2 j hj]
      simp [c]
  · rintro y ⟨h1, h2⟩
    apply List.ext_getElem
    · simpa using h1
    · intro i hi hi'
      have hin : i < n := by simpa using hi'
      have := h2 i hin
      rw [if_pos (hl.mem_iff.2 (List.mem_range.2 hin)), List.getD_eq_getElem?_getD, List.getElem?_eq_getElem hi] at this
      simpa using this

omit [CommSemiring R] in
theorem lift_foldlM {f : List R → Nat → Res (List R)} : ∀ (l : List Nat) (y : List R), Run.lift (l.foldlM f y) = l.foldlM (fun y i => Run.lift (f y i)) y
  | [], y => rfl
  | i :: l, y => by
    rw [List.foldlM_cons, List.foldlM_cons]
    cases h : f y i with
    | error e =>
      funext o
      apply propext
      constructor
      · intro ho; exact Or.inr ⟨e, rfl, ho⟩
      · rintro (⟨a, h1, -⟩ | ⟨f, h1, h2⟩)
        · cases h1
        · cases h1; exact h2
    | ok z =>
      rw [res_bind_ok, lift_foldlM l z]
      funext o
      apply propext
      constructor
      · intro ho; exact Or.inl ⟨z, rfl, ho⟩
      · rintro (⟨a, h1, h2⟩ | ⟨f, h1, -⟩)
        · cases h1; exact h2
        · cases h1

theorem order_gives (p : Policy) (n : Nat) : Run.Gives (order p n) fun l => l.Perm (List.range n) := by
  unfold order
  cases p with
  | seq => exact Run.gives_choose ⟨_, rfl⟩ fun l hl => by rw [hl]
  | par => exact Run.gives_choose ⟨_, List.Perm.refl _⟩ fun l hl => hl

theorem reduceRow_gives {x y : List R} {i : Nat} {r : List (Nat × R)} (hi : i < y.length) (hr : ∀ e ∈ r, e.1 < x.length) :
    Run.Gives (reduceRow x y i (.ok r)) (· = y.set i (y.getD i 0 + rowSum x r)) := by
  unfold reduceRow
  refine Run.Gives.bind (Run.gives_lift rfl rfl) ?_
  rintro _ rfl
  have hm : r.mapM (product x) = .ok (r.map fun e => x.getD e.1 0 * e.2) := mapM_ok_of_forall fun e he => by
    rw [product, vget_getD (hr e he), res_bind_ok]; rfl
  refine Run.Gives.bind (Run.gives_lift hm rfl) ?_
  rintro _ rfl
  refine Run.Gives.bind (Run.gives_choose (GenSum.exists _ _) fun s hs => hs.eq) ?_
  rintro s rfl
  refine Run.gives_lift (addTo_ok hi _) ?_
  rw [List.sum_cons, zero_add]
  congr 3
  simp [mul_comm]

variable {g : Csr R} {rows : Nat → List (Nat × R)} {x : List R}

/-- C139: the variants with a counting iterator compute the product of the matrix and the vector, in whatever order the positions are treated and however the sums of the rows are formed. -/
theorem exec_product_partial (hrow : ∀ u, u < g.numVertices → g.row u = .ok (rows u)) (hin : ∀ u, u < g.numVertices → ∀ e ∈ rows u, e.1 < x.length) (p : Policy) :
    let y := (List.range g.numVertices).map fun i => ((rows i).map fun e => e.2 * x.getD e.1 0).sum
    Run.Gives (variant1 p g x (List.replicate g.numVertices 0)) (· = y) ∧
    Run.Gives (variant2 p g x (List.replicate g.numVertices 0)) (· = y) ∧
    Run.Gives (variant4 p g x (List.replicate g.numVertices 0)) (· = y) := by
  refine ⟨?_, ?_, ?_⟩
  · unfold variant1
    refine (order_gives p _).bind fun l hl => ?_
    rw [lift_foldlM]
    refine each_once (v := fun i => rowSum x (rows i)) (fun y i hi hy => ?_) hl
    refine Run.gives_lift ?_ rfl
    rw [rawRow_eq, hrow i hi, res_bind_ok, addRow_ok _ _ (by omega) (hin i hi)]
  · unfold variant2
    refine (order_gives p _).bind fun l hl => ?_
    refine each_once (v := fun i => rowSum x (rows i)) (fun y i hi hy => ?_) hl
    rw [rawRow_eq, hrow i hi]
    exact reduceRow_gives (by omega) (hin i hi)
  · unfold variant4
    refine (order_gives p _).bind fun l hl => ?_
    refine each_once (v := fun i => rowSum x (rows i)) (fun y i hi hy => ?_) hl
    rw [hrow i hi]
    exact reduceRow_gives (by omega) (hin i hi)

/-- The first rows of the third variant. -/
theorem counted (hrow : ∀ u, u < g.numVertices → g.row u = .ok (rows u)) (hin : ∀ u, u < g.numVertices → ∀ e ∈ rows u, e.1 < x.length) (m : Nat) (hm : m ≤ g.numVertices) :
    (List.range m).foldlM (fun (a : List R × Nat) u => do
      let r ← g.row u
      let y ← addRow x a.2 r a.1
      return (y, a.2 + 1)) (List.replicate g.numVertices 0, 0) = (.ok ((List.range g.numVertices).map (fun i => if i < m then rowSum x (rows i) else 0), m) : Res (List R × Nat)) := by
  induction m with
  | zero => simp [List.map_const']
  | succ m ih =>
    rw [List.range_succ, List.foldlM_append, ih (by omega), res_bind_ok, List.foldlM_cons, hrow m (by omega), res_bind_ok, addRow_ok _ _ (by simp; omega) (hin m (by omega)), res_bind_ok]
    simp only [res_pure, res_bind_ok, List.foldlM_nil]
    congr 2
    apply List.ext_getElem
    · simp
    · intro i h1 h2
      have hi : i < g.numVertices := by simpa using h2
      rw [List.getElem_set]
      by_cases c : m = i
      · subst c
        simp [hi]
      · rw [if_neg c]
        simp only [List.getElem_map, List.getElem_range]
        by_cases d : i < m
        · rw [if_pos d, if_pos (by omega)]
        · rw [if_neg d, if_neg (by omega)]

/-- C139: so does the third variant, one row after the other, if the graph ends where its last row does. -/
theorem exec_counter_partial (hrow : ∀ u, u < g.numVertices → g.row u = .ok (rows u)) (hin : ∀ u, u < g.numVertices → ∀ e ∈ rows u, e.1 < x.length) (hN : g.N = g.numVertices) :
    Run.Gives (variant3 .seq g x (List.replicate g.numVertices 0)) (· = (List.range g.numVertices).map fun i => ((rows i).map fun e => e.2 * x.getD e.1 0).sum) := by
  unfold variant3
  refine Run.Gives.bind (Q := (· = List.range g.N)) (Run.gives_choose ⟨_, rfl⟩ fun l hl => hl) ?_
  rintro _ rfl
  rw [hN]
  refine Run.Gives.bind (Run.gives_lift (counted hrow hin _ (Nat.le_refl _)) rfl) ?_
  rintro _ rfl
  refine Run.gives_pure ?_
  apply List.map_congr_left
  intro i hi
  rw [if_pos (List.mem_range.1 hi)]; rfl

theorem variant3_fault (hrow : ∀ u, u < g.numVertices → g.row u = .ok (rows u)) (hin : ∀ u, u < g.numVertices → ∀ e ∈ rows u, e.1 < x.length) (hN : g.N = g.numVertices + 1) :
    Run.Faults (variant3 .seq g x (List.replicate g.numVertices 0)) .outOfBounds := by
  unfold variant3
  refine Run.Gives.bind_faults (Q := (· = List.range g.N)) (Run.gives_choose ⟨_, rfl⟩ fun l hl => hl) ?_
  rintro _ rfl
  have hbad : g.row g.numVertices = .error .outOfBounds := Csr.row_oob (Nat.le_refl _)
  refine (Run.faults_lift ?_).bind
  rw [hN, List.range_succ, List.foldlM_append, counted hrow hin _ (Nat.le_refl _), res_bind_ok, List.foldlM_cons, hbad]
  rfl

end

/-- C139, the program: on the adjacency that it builds from a directed edge list, the first two and the last variant compute the product with the transposed matrix, but the third reads out of bounds, and with it the program. -/
theorem exec_program_wrong [CommSemiring R] [Inhabited R] (o : Csr.Oracles R) (ho : o.Ok) (el : EdgeList R) (hw : el.Wf) (hb : EndpointsBelow el.numVertices el.contents)
    (x : List R) (hx : x.length = el.numVertices) :
    ∃ g, Csr.ofEdgeList o true 1 false el = .ok g ∧
      let y := (List.range el.numVertices).map fun i => ((el.contents.filter fun e => decide (e.2.1 = i)).map fun e => e.2.2 * x.getD e.1 0).sum
      let z := List.replicate el.numVertices 0
      (∀ p, Run.Gives (variant1 p g x z) (· = y) ∧ Run.Gives (variant2 p g x z) (· = y) ∧ Run.Gives (variant4 p g x z) (· = y)) ∧
        Run.Faults (variant3 .seq g x z) .outOfBounds ∧ ∀ ntrial, 0 < ntrial → Run.Faults (apbAdj .seq g x ntrial) .outOfBounds := by
  obtain ⟨g, h1, -, h3, -, h4, -, h5⟩ := Csr.fill_ok ho hw hb true (show 1 < 2 by omega) (Csr.sized (el.numVertices + 1) 0)
  have hN : g.N = g.numVertices + 1 := by rw [h4]; exact h3
  refine ⟨g, h1, ?_⟩
  intro y z
  let rows : Nat → List (Nat × R) := fun u => match g.row u with | .ok r => r | .error _ => []
  have hrows : ∀ u, u < el.numVertices → g.row u = .ok (rows u) ∧ (rows u).Perm (inEdges el.contents u) := by
    intro u hu
    obtain ⟨r, e, hp⟩ := h5 u hu
    have : rows u = r := by simp only [rows, e]
    rw [this]
    exact ⟨e, by simpa using hp⟩
  have hrow : ∀ u, u < g.numVertices → g.row u = .ok (rows u) := fun u hu => (hrows u (by omega)).1
  have hin : ∀ u, u < g.numVertices → ∀ e ∈ rows u, e.1 < x.length := by
    intro u hu e he
    have := (hrows u (by omega)).2.mem_iff.1 he
    obtain ⟨e', he', rfl⟩ := List.mem_map.1 this
    rw [hx]
    exact (hb e' (List.mem_filter.1 he').1).1
  have hy : ((List.range g.numVertices).map fun i => ((rows i).map fun e => e.2 * x.getD e.1 0).sum) = y := by
    rw [h4]
    apply List.map_congr_left
    intro i hi
    rw [(((hrows i (List.mem_range.1 hi)).2.map fun e => e.2 * x.getD e.1 0).sum_eq), inEdges, List.map_map]
    rfl
  have hall : ∀ p, Run.Gives (variant1 p g x z) (· = y) ∧ Run.Gives (variant2 p g x z) (· = y) ∧ Run.Gives (variant4 p g x z) (· = y) := by
    intro p
    have := exec_product_partial hrow hin p
    dsimp only at this
    rw [hy, h4] at this
    exact this
  have hf : Run.Faults (variant3 .seq g x z) .outOfBounds := by
    have := variant3_fault hrow hin hN
    rw [h4] at this
    exact this
  refine ⟨hall, hf, fun ntrial hn => ?_⟩
  have htr : ∀ (v : Policy → Csr R → List R → List R → Run (List R)) (out : List (List R)), Run.Gives (v .seq g x z) (· = y) →
      Run.Gives ((List.range ntrial).foldlM (fun out _ => do
        let y ← v .seq g x (List.replicate g.numVertices 0)
        return out ++ [y]) out) fun _ => True := by
    intro v out hv
    refine Run.gives_foldlM (fun _ _ => True) trivial fun pre x' post _ s _ => ?_
    rw [h4]
    exact hv.bind fun _ _ => Run.gives_pure trivial
  unfold apbAdj
  simp only [List.foldlM_cons]
  refine (htr variant1 _ (hall .seq).1).bind_faults fun out _ => ?_
  refine (htr variant2 _ (hall .seq).2.1).bind_faults fun out _ => ?_
  refine Run.Faults.bind ?_
  obtain ⟨n, rfl⟩ : ∃ n, ntrial = n + 1 := ⟨ntrial - 1, by omega⟩
  rw [List.range_succ_eq_map, List.foldlM_cons, h4]
  exact hf.bind.bind

/-- Two rows; the second one is empty. -/
def exG : Csr Int := { isOpen := false, N := 2, indices := [0, 1, 1], tgt := [0], attrs := [1] }

/-- C139: with a parallel policy for the outer loop, the third variant may put the rows at the wrong positions, as its counter says in which order the rows were treated and not which row it is. -/
theorem exec_par_counter_wrong : variant3 .par exG [1, 1] [0, 0] (.ok [0, 1]) ∧ Run.Gives (variant3 .seq exG [1, 1] [0, 0]) (· = [1, 0]) := by
  constructor
  · refine Or.inl ⟨[1, 0], ⟨[1, 0], by decide, rfl⟩, Or.inl ⟨([0, 1], 2), by unfold Run.lift; decide, rfl⟩⟩
  · refine (exec_counter_partial (g := exG) (rows := fun i => if i = 0 then [(0, 1)] else []) (x := [1, 1]) ?_ ?_ rfl).mono fun y hy => ?_
    · intro u hu
      have : u < 2 := hu
      match u with
      | 0 | 1 => decide
    · intro u hu e he
      have : u < 2 := hu
      match u with
      | 0 => simp at he; subst he; decide
      | 1 => simp at he
    · rw [hy]; decide

/-! ## The hypotheses can be met -/

example : Run.Gives (variant2 .par exG [5, 7] [0, 0]) (· = [5, 0]) := by
  have h := (exec_product_partial (g := exG) (rows := fun i => if i = 0 then [(0, 1)] else []) (x := [5, 7]) (by
    intro u hu
    have : u < 2 := hu
    match u with
    | 0 | 1 => decide) (by
    intro u hu e he
    have : u < 2 := hu
    match u with
    | 0 => simp at he; subst he; decide
    | 1 => simp at he) .par).2.1
  exact h.mono fun y hy => by rw [hy]; decide

example : let el : EdgeList Int := ⟨4, false, [2, 0, 2, 3], [1, 3, 0, 3], [10, 11, 12, 13]⟩
    el.Wf ∧ EndpointsBelow el.numVertices el.contents ∧ ∃ o : Csr.Oracles Int, o.Ok := by
  refine ⟨⟨rfl, rfl⟩, ?_, Csr.exists_oracles⟩
  simp [EndpointsBelow, EdgeList.contents, EdgeList.numVertices]

end NW.ApbExec
