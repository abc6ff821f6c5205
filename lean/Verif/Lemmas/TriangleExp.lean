import Verif.Model.TriangleExp
import Verif.Props.Triangle
import Verif.Props.Ranges
import Verif.Lemmas.Rows
import Mathlib.Data.List.TakeWhile

/-! Helper lemmas: the sums of the experimental triangle counts. -/

namespace NW.Triangle
open Spec Util

variable {α : Type}

/-- What one row adds: for each entry, the entries of the row that are also in the row of that entry. -/
def rowCount (g : Rows α) (row : List (Nat × α)) : Nat :=
  ((ids row).map fun v => ((ids row).filter fun w => decide (w ∈ nbrs g v)).length).sum

theorem foldlM_acc {β : Type} (l : List β) (f : Nat → β → Res Nat) (h : β → Nat) (hf : ∀ x ∈ l, ∀ acc, f acc x = .ok (acc + h x)) (acc : Nat) :
    l.foldlM f acc = .ok (acc + (l.map h).sum) := by
  induction l generalizing acc with
  | nil => rfl
  | cons x xs ih =>
    rw [List.foldlM_cons, hf x (by simp), res_bind_ok, ih (fun y hy => hf y (by simp [hy])), List.map_cons, List.sum_cons, Nat.add_assoc]

/-- The graph is sorted and in range. -/
structure Simple (g : Rows α) : Prop where
  range : InRange g
  sorted : ∀ u, (nbrs g u).Pairwise (· < ·)

theorem Simple.rowSorted {g : Rows α} (h : Simple g) {row : List (Nat × α)} (hr : row ∈ g) : (ids row).Pairwise (· < ·) := by
  obtain ⟨u, hu, rfl⟩ := List.getElem_of_mem hr
  rw [← nbrs_eq hu]; exact h.sorted u

theorem Simple.lt {g : Rows α} (h : Simple g) {row : List (Nat × α)} (hr : row ∈ g) {e : Nat × α} (he : e ∈ row) : e.1 < g.length := by
  obtain ⟨u, hu, rfl⟩ := List.getElem_of_mem hr
  refine h.range u e.1 ?_
  show e.1 ∈ nbrs g u
  rw [nbrs_eq hu]; exact List.mem_map_of_mem he

theorem Simple.entry {g : Rows α} (h : Simple g) {row : List (Nat × α)} (hr : row ∈ g) {e : Nat × α} (he : e ∈ row) :
    ∃ r, vget g e.1 = .ok r ∧ ids r = nbrs g e.1 ∧
      intersectionSize (ids row) (ids r) = .ok ((ids row).filter fun w => decide (w ∈ nbrs g e.1)).length := by
  have hv := h.lt hr he
  refine ⟨_, vget_of_lt hv, (nbrs_eq hv).symm, ?_⟩
  rw [← nbrs_eq hv]
  exact intersection_size_set _ _ (h.rowSorted hr) (h.sorted e.1)

theorem Simple.countRow {g : Rows α} (h : Simple g) {row : List (Nat × α)} (hr : row ∈ g) (acc : Nat) :
    countRow g acc row = .ok (acc + rowCount g row) := by
  unfold NW.Triangle.countRow
  rw [foldlM_acc row _ (fun e => ((Triangle.ids row).filter fun w => decide (w ∈ nbrs g e.1)).length)]
  · rw [rowCount, Triangle.ids, List.map_map]; rfl
  · intro e he acc
    obtain ⟨r, h1, -, h3⟩ := h.entry hr he
    rw [h1, res_bind_ok, h3, res_bind_ok]; rfl

theorem upper_simple {g : Rows α} {Adj : Nat → Nat → Prop} (h : Upper g Adj) : Simple g :=
  ⟨fun u v he => ((h.edges u v).1 he).2.1, h.sorted⟩

theorem lower_simple {g : Rows α} {Adj : Nat → Nat → Prop} (h : Lower g Adj) : Simple g :=
  ⟨fun u v he => by have := (h.edges u v).1 he; omega, h.sorted⟩

theorem either_simple {g : Rows α} {Adj : Nat → Nat → Prop} (h : Upper g Adj ∨ Lower g Adj) : Simple g := by
  rcases h with h | h
  · exact upper_simple h
  · exact lower_simple h

theorem workerRow_upper {g : Rows α} {Adj : Nat → Nat → Prop} (h : Upper g Adj) {row : List (Nat × α)} (hr : row ∈ g) (acc : Nat) :
    workerRow g acc row = .ok (acc + rowCount g row) := by
  have hs := upper_simple h
  obtain ⟨k, k1, k2, -⟩ := workerRow_ok h.sorted row (hs.rowSorted hr) (fun e he => hs.lt hr he) acc
  rw [k1, k2 (ids row) (hs.rowSorted hr) ⟨[], rfl⟩ (fun v _ w hw => ((h.edges v w).1 hw).1)]
  rfl

/-- The sum over the rows is the number of triangles. -/
theorem sum_rows {g : Rows α} {Adj : Nat → Nat → Prop} [DecidableRel Adj] (hsym : ∀ a b, Adj a b → Adj b a) (h : Upper g Adj ∨ Lower g Adj) :
    (g.map (rowCount g)).sum = (triangles g.length Adj).card := by
  have h1 := triangle_count_correct g Adj hsym h
  unfold triangleCount at h1
  rw [foldlM_acc g _ (rowCount g) (fun row hr acc => (either_simple h).countRow hr acc), Nat.zero_add] at h1
  exact Except.ok.inj h1

/-! ### Edges -/

theorem edge_ok {g : Rows α} (h : Simple g) {u : Nat} (hu : u < g.length) {e : Nat × α} (he : e ∈ g[u]) :
    edgeCount g (u, e) = .ok ((ids g[u]).filter fun w => decide (w ∈ nbrs g e.1)).length := by
  obtain ⟨r, h1, -, h3⟩ := h.entry (List.getElem_mem hu) he
  unfold edgeCount
  rw [vget_of_lt hu, res_bind_ok, h1, res_bind_ok, h3]

/-- What an edge adds. -/
def edgeVal (g : Rows α) (e : Nat × (Nat × α)) : Nat := ((nbrs g e.1).filter fun w => decide (w ∈ nbrs g e.2.1)).length

theorem sum_flatMap {β : Type} (l : List β) (f : β → List Nat) : (l.flatMap f).sum = (l.map fun x => (f x).sum).sum := by
  induction l with
  | nil => rfl
  | cons x xs ih => rw [List.flatMap_cons, List.sum_append, ih, List.map_cons, List.sum_cons]

/-- The rows by number. -/
def rowAt (g : Rows α) (u : Nat) : List (Nat × α) := g.getD u []

theorem rowAt_eq {g : Rows α} {u : Nat} (hu : u < g.length) : rowAt g u = g[u] := by
  unfold rowAt; rw [List.getD_eq_getElem?_getD, List.getElem?_eq_getElem hu]; rfl

theorem vget_rowAt {g : Rows α} {u : Nat} (hu : u < g.length) : vget g u = .ok (rowAt g u) := by
  rw [rowAt_eq hu, vget_of_lt hu]

theorem map_rowAt (g : Rows α) : (List.range g.length).map (rowAt g) = g := by
  apply List.ext_getElem
  · simp
  · intro i h1 h2
    rw [List.getElem_map, List.getElem_range, rowAt_eq h2]

theorem sum_edges {g : Rows α} : ((Ranges.rowEdges (rowAt g) 0 g.length).map (edgeVal g)).sum = (g.map (rowCount g)).sum := by
  unfold Ranges.rowEdges
  rw [List.map_flatMap, sum_flatMap]
  conv => rhs; rw [← map_rowAt g, List.map_map]
  rw [Nat.sub_zero, ← List.range_eq_range', map_rowAt g]
  congr 1
  apply List.map_congr_left
  intro u hu
  have hu : u < g.length := by simpa using hu
  simp only [List.map_map, Function.comp_def, rowCount, ids, edgeVal, rowAt_eq hu]
  rw [nbrs_eq hu]; rfl

theorem rowEdges_mem {g : Rows α} {b e : Nat} {x : Nat × (Nat × α)} (he : e ≤ g.length) (hx : x ∈ Ranges.rowEdges (rowAt g) b e) :
    ∃ hu : x.1 < g.length, x.2 ∈ g[x.1] := by
  unfold Ranges.rowEdges at hx
  rw [List.mem_flatMap] at hx
  obtain ⟨u, hu, hx⟩ := hx
  rw [List.mem_range'] at hu
  obtain ⟨i, hi, rfl⟩ := hu
  rw [List.mem_map] at hx
  obtain ⟨y, hy, rfl⟩ := hx
  refine ⟨by simp only; omega, ?_⟩
  simp only
  rw [← rowAt_eq]; exact hy

theorem edgeCount_ok {g : Rows α} (h : Simple g) {b e : Nat} {x : Nat × (Nat × α)} (he : e ≤ g.length) (hx : x ∈ Ranges.rowEdges (rowAt g) b e) :
    edgeCount g x = .ok (edgeVal g x) := by
  obtain ⟨hu, hm⟩ := rowEdges_mem he hx
  obtain ⟨u, y⟩ := x
  rw [edge_ok h hu hm, edgeVal, nbrs_eq hu]

theorem edgeRange_gives (g : Rows α) {b e : Nat} (hbe : b ≤ e) (he : e ≤ g.length) :
    Run.Gives (edgeRange g b e) (· = Ranges.rowEdges (rowAt g) b e) := by
  have h := Ranges.edge_range_enumerates (vget g) (rowAt g) b e hbe (fun u _ hu => vget_rowAt (by omega))
  unfold Ranges.EdgeRangeVisits at h
  unfold edgeRange
  split at h
  · rename_i p hp
    rw [hp]
    refine (Run.gives_lift rfl (Q := (· = p)) rfl).bind ?_
    rintro _ rfl
    exact ⟨⟨_, h⟩, fun o ho => ⟨_, Iter.Visits.det ho h, rfl⟩⟩
  · cases h

/-! ### Threads -/

theorem async_ok {threads : Nat} {f : Nat → Res Nat} {h : Nat → Nat} (hf : ∀ tid < threads, f tid = .ok (h tid)) :
    async threads f = .ok ((List.range threads).map h).sum := by
  unfold async
  rw [foldlM_add (List.range threads) f h (fun tid ht => hf tid (by simpa using ht)), Nat.zero_add]

theorem blocks_flatMap (c : Nat → Nat) (k : Nat) (hm : ∀ id < k, c id ≤ c (id + 1)) :
    c 0 ≤ c k ∧ (List.range k).flatMap (fun id => List.range' (c id) (c (id + 1) - c id)) = List.range' (c 0) (c k - c 0) := by
  induction k with
  | zero => simp
  | succ k ih =>
    obtain ⟨h1, h2⟩ := ih (fun id h => hm id (by omega))
    have h3 := hm k (by omega)
    refine ⟨by omega, ?_⟩
    rw [List.range_succ, List.flatMap_append, h2, List.flatMap_singleton]
    have := List.range'_append (s := c 0) (m := c k - c 0) (n := c (k + 1) - c k) (step := 1)
    rw [Nat.one_mul, show c 0 + (c k - c 0) = c k by omega, show c k - c 0 + (c (k + 1) - c k) = c (k + 1) - c 0 by omega] at this
    exact this

theorem sum_blocks (F : Nat → Nat) (c : Nat → Nat) (k : Nat) (hm : ∀ id < k, c id ≤ c (id + 1)) :
    ((List.range k).map fun id => ((List.range' (c id) (c (id + 1) - c id)).map F).sum).sum = ((List.range' (c 0) (c k - c 0)).map F).sum := by
  rw [← (blocks_flatMap c k hm).2, List.map_flatMap, sum_flatMap]

theorem cut_mono (N n id : Nat) : cut N n id ≤ cut N n (id + 1) := by
  unfold cut
  rw [Nat.add_mul, Nat.one_mul]
  generalize N / n = q
  generalize N % n = r
  omega

theorem workerV6_eq {g : Rows α} (h : Simple g) {threads : Nat} (ht : 0 < threads) (i acc : Nat) :
    workerV6 g threads i acc =
      .ok (acc + ∑ u ∈ (Finset.range g.length).filter (fun u => i ≤ u ∧ u % threads = i % threads), rowCount g (rowAt g u)) := by
  induction hk : g.length - i using Nat.strongRecOn generalizing i acc with
  | ind k ih =>
    unfold workerV6
    by_cases c : i < g.length
    · rw [dif_pos ⟨ht, c⟩, vget_rowAt c, res_bind_ok, h.countRow (by rw [rowAt_eq c]; exact List.getElem_mem c), res_bind_ok,
        ih _ (by omega) (i + threads) _ rfl]
      congr 1
      have : (Finset.range g.length).filter (fun u => i ≤ u ∧ u % threads = i % threads) =
          insert i ((Finset.range g.length).filter (fun u => i + threads ≤ u ∧ u % threads = (i + threads) % threads)) := by
        ext u
        simp only [Finset.mem_filter, Finset.mem_range, Finset.mem_insert, Nat.add_mod_right]
        constructor
        · rintro ⟨h1, h2, h3⟩
          by_cases e : u = i
          · exact Or.inl e
          · right
            refine ⟨h1, ?_, h3⟩
            have h4 : (u - i) % threads = 0 := by
              have d1 := Nat.div_add_mod u threads
              have d2 := Nat.div_add_mod i threads
              have d3 : u - i = threads * (u / threads - i / threads) := by rw [Nat.mul_sub]; omega
              rw [d3]; exact Nat.mul_mod_right _ _
            have := Nat.le_of_dvd (by omega) (Nat.dvd_of_mod_eq_zero h4)
            omega
        · rintro (rfl | ⟨h1, h2, h3⟩)
          · exact ⟨c, Nat.le_refl _, rfl⟩
          · exact ⟨h1, by omega, h3⟩
      rw [this, Finset.sum_insert (by simp; omega)]
      omega
    · rw [dif_neg (by omega), Finset.sum_eq_zero]
      · rfl
      · intro u hu
        simp only [Finset.mem_filter, Finset.mem_range] at hu
        omega

theorem sum_finset_rows (g : Rows α) (F : List (Nat × α) → Nat) : ∑ u ∈ Finset.range g.length, F (rowAt g u) = (g.map F).sum := by
  conv => rhs; rw [← map_rowAt g, List.map_map]
  rw [← List.sum_toFinset _ List.nodup_range, show (List.range g.length).toFinset = Finset.range g.length by ext; simp]
  rfl

/-! ### for_each -/

theorem forEachAdd_gives {β : Type} (l : List β) (f : β → Run Nat) (h : β → Nat) (hf : ∀ x ∈ l, Run.Gives (f x) (· = h x)) :
    Run.Gives (forEachAdd l f) (· = (l.map h).sum) := by
  unfold forEachAdd
  refine (Run.gives_choose (p := fun l' => l'.Perm l) (Q := fun l' => l'.Perm l) ⟨l, List.Perm.refl l⟩ fun _ h' => h').bind fun l' hl => ?_
  refine (Run.gives_foldlM (l := l') (I := fun pre s => s = (pre.map h).sum) rfl ?_).mono ?_
  · rintro pre x post e s rfl
    refine (hf x (hl.mem_iff.1 (by rw [e]; simp))).bind ?_
    rintro _ rfl
    exact Run.gives_pure (by simp)
  · rintro _ rfl
    exact (hl.map h).sum_eq

/-! ### parallel_reduce -/

theorem reduceSeq_gives {ρ ε : Type} {visits : ρ → Run (List ε)} {op : ε → Res Nat} {h : ε → Nat} {r : ρ} {xs : List ε}
    (hv : Run.Gives (visits r) (· = xs)) (hop : ∀ x ∈ xs, op x = .ok (h x)) (acc : Nat) :
    Run.Gives (reduceSeq visits op r acc) (· = acc + (xs.map h).sum) := by
  unfold reduceSeq
  refine hv.bind ?_
  rintro _ rfl
  exact Run.gives_lift (foldlM_add _ _ _ hop acc) rfl

theorem reduceTbb_gives {ρ ε : Type} {s : Ranges.Splitter ρ} {visits : ρ → Run (List ε)} {op : ε → Res Nat} {h : ε → Nat} {elems : ρ → List ε} :
    ∀ (t : Steals) (r : ρ), (∀ l ∈ s.leaves t.tree r, Run.Gives (visits l) (· = elems l) ∧ ∀ x ∈ elems l, op x = .ok (h x)) →
      ∀ acc, Run.Gives (reduceTbb s visits op t r acc) (· = acc + (((s.leaves t.tree r).flatMap elems).map h).sum) := by
  intro t
  induction t with
  | leaf =>
    intro r hl acc
    obtain ⟨h1, h2⟩ := hl r (by simp [Steals.tree, Ranges.Splitter.leaves])
    simpa [Steals.tree, Ranges.Splitter.leaves, reduceTbb] using reduceSeq_gives h1 h2 acc
  | node st a b iha ihb =>
    intro r hl acc
    have ha := iha (s.split r).1 (fun l hm => hl l (by simp [Steals.tree, Ranges.Splitter.leaves, hm]))
    have hb := ihb (s.split r).2 (fun l hm => hl l (by simp [Steals.tree, Ranges.Splitter.leaves, hm]))
    have e : (((s.leaves (Steals.node st a b).tree r).flatMap elems).map h).sum =
        (((s.leaves a.tree (s.split r).1).flatMap elems).map h).sum + (((s.leaves b.tree (s.split r).2).flatMap elems).map h).sum := by
      simp [Steals.tree, Ranges.Splitter.leaves]
    rw [e]
    cases st
    · refine (hb acc).bind ?_
      rintro _ rfl
      refine (ha _).mono ?_
      rintro _ rfl; omega
    · refine (hb acc).bind ?_
      rintro _ rfl
      refine (ha 0).bind ?_
      rintro _ rfl
      exact Run.gives_pure (by omega)

theorem parReduce_gives {ρ ε : Type} {s : Ranges.Splitter ρ} {visits : ρ → Run (List ε)} {op : ε → Res Nat} {h : ε → Nat} {elems : ρ → List ε} {r : ρ}
    {all : List ε}
    (hl : ∀ t, (∀ l ∈ s.leaves t r, Run.Gives (visits l) (· = elems l) ∧ ∀ x ∈ elems l, op x = .ok (h x)) ∧ ((s.leaves t r).flatMap elems).Perm all) :
    Run.Gives (parReduce s visits op r) (· = (all.map h).sum) := by
  unfold parReduce
  split
  · refine (Run.gives_choose (Q := fun _ => True) ⟨Steals.leaf, trivial⟩ fun _ _ => trivial).bind fun t _ => ?_
    refine (reduceTbb_gives t r (hl t.tree).1 0).mono ?_
    rintro _ rfl
    rw [Nat.zero_add]
    exact ((hl t.tree).2.map h).sum_eq
  · obtain ⟨h1, h2⟩ := hl .leaf
    obtain ⟨h3, h4⟩ := h1 r (by simp [Ranges.Splitter.leaves])
    refine (reduceSeq_gives h3 h4 0).mono ?_
    rintro _ rfl
    rw [Nat.zero_add]
    have : (s.leaves .leaf r).flatMap elems = elems r := by simp [Ranges.Splitter.leaves]
    rw [this] at h2
    exact (h2.map h).sum_eq

theorem cyclic_gives (g : Rows α) (stride : Nat) (h1 : 1 ≤ stride) (h2 : stride ≤ 2 ^ 62) (op : List (Nat × α) → Res Nat) (h : List (Nat × α) → Nat)
    (hop : ∀ row ∈ g, op row = .ok (h row)) :
    Run.Gives (do let r ← Run.lift (Ranges.mkCyclic g.length stride); parReduce Ranges.cyclic (cyclicRows g) op r) (· = (g.map h).sum) := by
  obtain ⟨k, p, e1, e2, -⟩ := pow2_ceil_log2_partial stride h1 h2
  have e : Ranges.mkCyclic g.length stride = .ok ⟨g.length, p, 0, 1⟩ := by
    unfold Ranges.mkCyclic; rw [e1, res_bind_ok, e2, res_bind_ok]; rfl
  refine (Run.gives_lift e (Q := (· = ⟨g.length, p, 0, 1⟩)) rfl).bind ?_
  rintro _ rfl
  refine parReduce_gives (elems := fun l => l.positions.filterMap (g[·]?)) fun t => ?_
  obtain ⟨k1, k2⟩ := Ranges.cyclic_range_partitions g stride _ e t
  refine ⟨fun l hl => ⟨⟨⟨_, (k1 l hl).1⟩, fun o ho => ⟨_, Iter.Visits.det ho (k1 l hl).1, rfl⟩⟩, fun x hx => hop x ?_⟩, k2⟩
  rw [List.mem_filterMap] at hx
  obtain ⟨i, -, hi⟩ := hx
  exact List.mem_of_getElem? hi

/-! ### The compressed arrays -/

theorem gallop_eq (xs ys : List Nat) (hx : xs.Pairwise (· < ·)) (hy : ys.Pairwise (· < ·)) :
    gallop xs ys = (ys.filter fun y => decide (y ∈ xs)).length := by
  induction hn : xs.length + ys.length using Nat.strongRecOn generalizing xs ys with
  | ind n ih =>
    unfold gallop
    match xs, ys, hx, hy, hn with
    | [], ys, _, _, _ => simp
    | x :: xs, [], _, _, _ => simp
    | x :: xs, y :: ys, hx, hy, hn =>
      have hx1 := (List.pairwise_cons.1 hx).1
      have hx2 := (List.pairwise_cons.1 hx).2
      have hy1 := (List.pairwise_cons.1 hy).1
      have hy2 := (List.pairwise_cons.1 hy).2
      simp only [List.length_cons] at hn
      by_cases c1 : x < y
      · have hl := (List.dropWhile_sublist (fun z => decide (z < y)) (l := xs)).length_le
        simp only [c1, if_true]
        rw [ih (_ + _) (by simp only [List.length_cons]; omega) _ _ (hx2.sublist (List.dropWhile_sublist _)) hy rfl]
        congr 1
        apply List.filter_congr
        intro z hz
        have hyz : y ≤ z := by
          rcases List.mem_cons.1 hz with rfl | hz
          · exact Nat.le_refl _
          · exact Nat.le_of_lt (hy1 z hz)
        have : z ∈ xs.dropWhile (fun z => decide (z < y)) ↔ z ∈ x :: xs := by
          rw [List.mem_cons]
          constructor
          · exact fun h => Or.inr ((List.dropWhile_sublist _).subset h)
          · rintro (rfl | h)
            · omega
            · rw [← List.takeWhile_append_dropWhile (p := fun z => decide (z < y)) (l := xs), List.mem_append] at h
              rcases h with h | h
              · have := List.mem_takeWhile_imp h
                simp at this; omega
              · exact h
        simp only [this]
      · by_cases c2 : y < x
        · have hl := (List.dropWhile_sublist (fun z => decide (z < x)) (l := ys)).length_le
          simp only [c1, c2, if_true, if_false]
          rw [ih (_ + _) (by simp only [List.length_cons]; omega) _ _ hx (hy2.sublist (List.dropWhile_sublist _)) rfl]
          have hsmall : ∀ z, z < x → z ∉ x :: xs := by
            intro z hz hm
            rcases List.mem_cons.1 hm with rfl | hm
            · omega
            · have := hx1 z hm; omega
          have e1 : (ys.takeWhile fun z => decide (z < x)).filter (fun y => decide (y ∈ x :: xs)) = [] := by
            rw [List.filter_eq_nil_iff]
            intro z hz
            have := List.mem_takeWhile_imp hz
            simp only [decide_eq_true_eq] at this ⊢
            exact hsmall z this
          conv => rhs; rw [List.filter_cons_of_neg (by simpa using hsmall y c2),
            ← List.takeWhile_append_dropWhile (p := fun z => decide (z < x)) (l := ys), List.filter_append, e1, List.nil_append]
        · have : x = y := by omega
          subst this
          simp only [c1, if_false]
          rw [ih (_ + _) (by omega) _ _ hx2 hy2 rfl, List.filter_cons_of_pos (by simp), List.length_cons]
          congr 2
          apply List.filter_congr
          intro z hz
          have := hy1 z hz
          have e : z ∈ x :: xs ↔ z ∈ xs := by
            rw [List.mem_cons]
            constructor
            · rintro (rfl | h)
              · omega
              · exact h
            · exact Or.inr
          simp only [e]

theorem pointers_row {c : Csr α} {g : Rows α} (hc : c.Rows g) {u : Nat} (hu : u < g.length) :
    pointers c.tgt (((g.take u).flatten).length) (((g.take (u + 1)).flatten).length) = .ok (nbrs g u) := by
  unfold pointers
  have h1 := Csr.take_flatten_length_mono g (show u ≤ u + 1 by omega)
  have h2 := Csr.take_flatten_length_le g (u + 1)
  rw [if_pos ⟨h1, by rw [hc.tgt, List.length_map]; exact h2⟩, hc.tgt, ← List.map_drop, ← List.map_take]
  have := slice_flatten g u hu
  unfold slice at this
  rw [this, nbrs_eq hu]; rfl

theorem csr_row {c : Csr α} {g : Rows α} (hc : c.Rows g) (v : Nat) : c.row v = vget g v := by
  rcases Nat.lt_or_ge v g.length with h | h
  · rw [hc.row h, vget_of_lt h]
  · rw [Csr.row_oob (by rw [hc.numVertices]; exact h)]
    unfold vget; rw [List.getElem?_eq_none h]

theorem upperRow_eq {c : Csr α} {g : Rows α} (hc : c.Rows g) (acc : Nat) (row : List (Nat × α)) : upperRow c acc row = workerRow g acc row := by
  induction row generalizing acc with
  | nil => rfl
  | cons e es ih => unfold upperRow workerRow; simp only [csr_row hc, ih]

theorem fullRow_eq {c : Csr α} {g : Rows α} (hc : c.Rows g) (acc : Nat) (row : List (Nat × α)) : fullRow c acc row = countRow g acc row := by
  unfold fullRow countRow; simp only [csr_row hc]

/-- `source` does not decrease, ends at the number of rows, and no row before `source(0)` has an entry. -/
theorem source_spec {c : Csr α} {g : Rows α} (hc : c.Rows g) :
    (∀ i j, i ≤ j → c.source i ≤ c.source j) ∧ c.source c.numEdges = g.length ∧ ∀ u (hu : u < g.length), u < c.source 0 → g[u] = [] := by
  have hmono := hc.wf.mono
  refine ⟨?_, ?_, ?_⟩
  · intro i j hij
    unfold Csr.source
    have : (c.indices.takeWhile fun x => decide (x ≤ i)).length ≤ (c.indices.takeWhile fun x => decide (x ≤ j)).length := by
      obtain ⟨a1, -⟩ := Csr.takeWhile_le_spec c.indices i hmono
      obtain ⟨-, b2⟩ := Csr.takeWhile_le_spec c.indices j hmono
      by_contra hlt
      have hl : (c.indices.takeWhile fun x => decide (x ≤ i)).length ≤ c.indices.length := (List.takeWhile_sublist _).length_le
      have h1 := a1 _ (by omega : (c.indices.takeWhile fun x => decide (x ≤ j)).length < c.indices.length) (by omega)
      have h2 := b2 _ (by omega : (c.indices.takeWhile fun x => decide (x ≤ j)).length < c.indices.length) (Nat.le_refl _)
      omega
    omega
  · unfold Csr.source
    rw [List.takeWhile_eq_self_iff.2, hc.len, Nat.add_sub_cancel]
    intro x hx
    obtain ⟨u, hu, rfl⟩ := List.getElem_of_mem hx
    have := hc.offset (u := u) (by rw [hc.len] at hu; omega)
    rw [List.getElem?_eq_getElem hu] at this
    rw [Option.some.inj this, hc.numEdges]
    exact decide_eq_true (Csr.take_flatten_length_le g u)
  · intro u hu hs
    obtain ⟨a1, -⟩ := Csr.takeWhile_le_spec c.indices 0 hmono
    unfold Csr.source at hs
    have hlt : u + 1 < c.indices.length := by rw [hc.len]; omega
    have h1 := a1 (u + 1) hlt (by omega)
    have h2 := hc.offset (u := u + 1) (by omega)
    rw [List.getElem?_eq_getElem hlt] at h2
    have h3 := Option.some.inj h2
    rw [flatten_take_succ _ _ hu, List.length_append] at h3
    exact List.length_eq_zero_iff.1 (by omega)

theorem split_ok {w : Nat} {c : Csr α} {g : Rows α} (hc : c.Rows g) {threads : Nat} (ht : 0 < threads) (hw : threads < 2 ^ w)
    (he : c.numEdges < 2 ^ w) {f : Nat → List (Nat × α) → Res Nat} (hf : ∀ row ∈ g, ∀ acc, f acc row = .ok (acc + rowCount g row)) :
    async threads (splitWorker w c f threads) = .ok (g.map (rowCount g)).sum := by
  obtain ⟨s1, s2, s3⟩ := source_spec hc
  let cc : Nat → Nat := fun id => c.source (cut c.numEdges threads id)
  have hcc : ∀ id, cc id ≤ cc (id + 1) := fun id => s1 _ _ (cut_mono _ _ _)
  have hle : ∀ id, id ≤ threads → cc id ≤ g.length := fun id hid => by rw [← s2]; exact s1 _ _ (cut_le _ _ _ hid)
  rw [async_ok (h := fun id => ((List.range' (cc id) (cc (id + 1) - cc id)).map fun u => rowCount g (rowAt g u)).sum)]
  · congr 1
    rw [sum_blocks (fun u => rowCount g (rowAt g u)) cc threads (fun id _ => hcc id)]
    have e1 : cc threads = g.length := by show c.source _ = _; rw [cut_last _ _ ht, s2]
    have e0 : cc 0 = c.source 0 := by simp [cc, cut]
    have h0 : c.source 0 ≤ g.length := by rw [← e0]; exact hle 0 (by omega)
    rw [e1, e0]
    conv => rhs; rw [← map_rowAt g, List.map_map]
    rw [map_rowAt g, List.range_eq_range', show g.length = c.source 0 + (g.length - c.source 0) by omega]
    have := List.range'_append (s := 0) (m := c.source 0) (n := g.length - c.source 0) (step := 1)
    rw [← this, List.map_append, List.sum_append, Nat.one_mul, Nat.zero_add, show c.source 0 + (g.length - c.source 0) - c.source 0 = g.length - c.source 0 by omega]
    have hz : ((List.range' 0 (c.source 0)).map (rowCount g ∘ rowAt g)).sum = 0 := by
      rw [← List.range_eq_range']
      apply List.sum_eq_zero
      intro x hx
      rw [List.mem_map] at hx
      obtain ⟨u, hu, rfl⟩ := hx
      have hu : u < c.source 0 := by simpa using hu
      rw [Function.comp_apply, rowAt_eq (by omega : u < g.length), s3 u (by omega) hu]
      rfl
    rw [hz, Nat.zero_add]; rfl
  · intro tid htid
    unfold splitWorker
    rw [block_eq w _ _ _ ht he hw htid, res_bind_ok]
    have hch : check (decide (c.source (cut c.numEdges threads tid) ≤ c.source (cut c.numEdges threads (tid + 1)))) = .ok () := by
      rw [decide_eq_true (hcc tid)]; rfl
    simp only [hch, res_bind_ok]
    rw [foldlM_acc _ _ (fun u => rowCount g (rowAt g u)), Nat.zero_add]
    intro u hu acc
    rw [List.mem_range'] at hu
    obtain ⟨i, hi, rfl⟩ := hu
    have hlt : cc tid + 1 * i < g.length := by
      have := hle (tid + 1) (by omega)
      show c.source (cut c.numEdges threads tid) + 1 * i < g.length
      have e1 : cc (tid + 1) = c.source (cut c.numEdges threads (tid + 1)) := rfl
      omega
    rw [csr_row hc, vget_rowAt hlt, res_bind_ok]
    exact hf _ (by rw [rowAt_eq hlt]; exact List.getElem_mem hlt) acc

end NW.Triangle
