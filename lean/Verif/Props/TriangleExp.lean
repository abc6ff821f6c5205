import Verif.Lemmas.TriangleExp

/-!
# Property C80: the experimental triangle counts

`Upper g Adj` and `Lower g Adj` (Spec/Triangles) say that `g` is the upper or lower triangular, sorted adjacency of the simple graph `Adj`;
`c.Rows g` says that the compressed structure `c` holds the rows `g`.
-/

namespace NW.Triangle
open Spec Util

variable {α : Type} (g : Rows α) (Adj : Nat → Nat → Prop) [DecidableRel Adj] (hsym : ∀ a b, Adj a b → Adj b a)
include hsym

/-! ## Versions for upper and lower triangular graphs -/

/-- C80, `triangle_count_vc`. -/
theorem triangle_count_vc (h : Upper g Adj ∨ Lower g Adj) (c : Csr α) (hc : c.Rows g) : countVc c = .ok (triangles g.length Adj).card := by
  have hs := either_simple h
  unfold countVc
  rw [hc.len, Nat.add_sub_cancel, foldlM_acc _ _ (fun u => rowCount g (rowAt g u)), Nat.zero_add, ← sum_rows hsym h]
  · congr 1
    conv => rhs; rw [← map_rowAt g, List.map_map]
    rw [map_rowAt g]; rfl
  intro u hu acc
  have hu : u < g.length := by simpa using hu
  unfold vcRow
  have hle := Csr.take_flatten_length_mono g (show u ≤ u + 1 by omega)
  have hmax := Csr.take_flatten_length_le g (u + 1)
  rw [hc.vget (by omega), res_bind_ok, hc.vget (by omega), res_bind_ok]
  have hlen : ((g.take (u + 1)).flatten).length = ((g.take u).flatten).length + g[u].length := by
    rw [flatten_take_succ _ _ hu, List.length_append]
  -- position by position
  have hpos : ∀ i (hi : i < g[u].length), c.tgt[((g.take u).flatten).length + i]? = some (g[u][i]).1 := by
    intro i hi
    rw [hc.tgt, List.getElem?_map, flatten_split g u hu, List.getElem?_append_right (by omega), Nat.add_sub_cancel_left,
      List.getElem?_append_left hi, List.getElem?_eq_getElem hi]
    rfl
  let F : Nat → Nat := fun j => ((nbrs g u).filter fun w => decide (w ∈ nbrs g (c.tgt.getD j 0))).length
  rw [foldlM_acc _ _ F]
  · rw [rowAt_eq hu]
    congr 2
    unfold rowCount
    congr 1
    rw [hlen, Nat.add_sub_cancel_left]
    apply List.ext_getElem
    · simp [ids]
    · intro i h1 h2
      have hi : i < g[u].length := by simpa using h1
      simp only [List.getElem_map, List.getElem_range', F]
      rw [Nat.one_mul, List.getD_eq_getElem?_getD, hpos i hi, nbrs_eq hu]
      simp [ids]
  · intro j hj acc
    rw [List.mem_range'] at hj
    obtain ⟨i, hi, rfl⟩ := hj
    have hi : i < g[u].length := by omega
    rw [Nat.one_mul]
    have hj := hpos i hi
    have hv : (g[u][i]).1 < g.length := hs.lt (List.getElem_mem hu) (List.getElem_mem hi)
    unfold vcEdge
    rw [vget_eq_ok.2 hj, res_bind_ok, hc.vget (by omega), res_bind_ok, hc.vget (by omega), res_bind_ok, hc.vget (by omega), res_bind_ok,
      hc.vget (by omega), res_bind_ok, pointers_row hc hv, res_bind_ok, pointers_row hc hu, res_bind_ok,
      gallop_eq _ _ (hs.sorted _) (hs.sorted _)]
    simp only [F, List.getD_eq_getElem?_getD, hj, Option.getD_some]
    rfl

/-- C80, `triangle_count_v15`. -/
theorem triangle_count_v15 (h : Upper g Adj ∨ Lower g Adj) : Run.Gives (countV15 g) (· = (triangles g.length Adj).card) := by
  have hs := either_simple h
  unfold countV15
  obtain ⟨h1, -⟩ := Ranges.neighbor_range_splits (vget g) (rowAt g) 0 g.length (Nat.zero_le _) (fun u _ hu => vget_rowAt hu) .leaf
  have h1 := h1 ⟨0, g.length⟩ (by simp [Ranges.Splitter.leaves])
  simp only [Nat.sub_zero] at h1
  refine Run.Gives.bind (Q := (· = (List.range' 0 g.length).map fun u => (u, rowAt g u)))
    ⟨⟨_, h1⟩, fun o ho => ⟨_, Iter.Visits.det ho h1, rfl⟩⟩ ?_
  rintro _ rfl
  refine Run.gives_lift (foldlM_acc _ _ (fun r => rowCount g r.2) ?_ 0) ?_
  · intro r hr acc
    rw [List.mem_map] at hr
    obtain ⟨u, hu, rfl⟩ := hr
    rw [← List.range_eq_range'] at hu
    have hu : u < g.length := by simpa using hu
    exact hs.countRow (by rw [rowAt_eq hu]; exact List.getElem_mem hu) acc
  · rw [Nat.zero_add, ← sum_rows hsym h, List.map_map, ← List.range_eq_range']
    conv => rhs; rw [← map_rowAt g, List.map_map]
    rw [map_rowAt g]; rfl

/-- C80, `triangle_count_v2`. -/
theorem triangle_count_v2 (h : Upper g Adj ∨ Lower g Adj) : countV2 g = .ok (triangles g.length Adj).card := by
  have hs := either_simple h
  unfold countV2
  obtain ⟨r, h1, h2⟩ := foldlM_list_inv (l := g)
    (f := fun (p : Nat × Nat) row => (do let acc ← rowV2 g p.2 p.1 row; return (acc, p.2 + 1) : Res (Nat × Nat))) (s := (0, 0))
    (fun pre s => s = ((pre.map (rowCount g)).sum, pre.length)) rfl (by
      rintro pre row post hl s rfl
      have hlen : pre.length < g.length := by rw [hl]; simp
      have hrw : g[pre.length] = row := by
        have : g[pre.length]? = some row := by rw [hl]; simp
        rw [List.getElem?_eq_getElem hlen] at this
        exact Option.some.inj this
      have hr : row ∈ g := by rw [← hrw]; exact List.getElem_mem hlen
      refine ⟨((pre ++ [row]).map (rowCount g) |>.sum, (pre ++ [row]).length), ?_, rfl⟩
      unfold rowV2
      rw [foldlM_acc row _ (fun e => ((ids row).filter fun w => decide (w ∈ nbrs g e.1)).length)]
      · rw [res_bind_ok]
        simp [rowCount, ids, List.map_map, Function.comp_def]
      · intro e he acc
        have hv := hs.lt hr he
        have e1 : nbrs g pre.length = ids row := by rw [nbrs_eq hlen, hrw]
        rw [vget_of_lt hv, res_bind_ok, vget_of_lt hlen, res_bind_ok, ← nbrs_eq hv, ← nbrs_eq hlen,
          intersection_size_set _ _ (hs.sorted _) (hs.sorted _), res_bind_ok, ← e1]
        show Except.ok _ = Except.ok _
        congr 2
        -- the intersection is symmetric
        rw [← List.toFinset_card_of_nodup (((hs.sorted e.1).imp Nat.ne_of_lt).filter _),
          ← List.toFinset_card_of_nodup (((hs.sorted pre.length).imp Nat.ne_of_lt).filter _)]
        congr 1
        ext w
        simp only [List.mem_toFinset, List.mem_filter, decide_eq_true_eq]
        exact And.comm)
  rw [h1, res_bind_ok, h2, ← sum_rows hsym h]
  rfl

/-- C80, `triangle_count_v3`. -/
theorem triangle_count_v3 (h : Upper g Adj ∨ Lower g Adj) : Run.Gives (countV3 g) (· = (triangles g.length Adj).card) := by
  have hs := either_simple h
  unfold countV3
  refine (edgeRange_gives g (Nat.zero_le _) (Nat.le_refl _)).bind ?_
  rintro _ rfl
  refine Run.gives_lift (foldlM_add _ _ (edgeVal g) (fun x hx => edgeCount_ok hs (Nat.le_refl _) hx) 0) ?_
  rw [Nat.zero_add, sum_edges, sum_rows hsym h]

/-- C80, `triangle_count_v6`: every number of threads. -/
theorem triangle_count_v6 (h : Upper g Adj ∨ Lower g Adj) (threads : Nat) (ht : 0 < threads) :
    countV6 g threads = .ok (triangles g.length Adj).card := by
  have hs := either_simple h
  unfold countV6
  rw [async_ok (h := fun tid => ∑ u ∈ (Finset.range g.length).filter (fun u => u % threads = tid), rowCount g (rowAt g u))]
  · rw [← List.sum_toFinset _ List.nodup_range, show (List.range threads).toFinset = Finset.range threads by ext; simp,
      Finset.sum_fiberwise_of_maps_to (fun u _ => Finset.mem_range.2 (Nat.mod_lt u ht)) fun u => rowCount g (rowAt g u), sum_finset_rows, sum_rows hsym h]
  · intro tid htid
    rw [workerV6_eq hs ht, Nat.zero_add]
    congr 2
    ext u
    simp only [Finset.mem_filter, Finset.mem_range, Nat.mod_eq_of_lt htid]
    constructor
    · rintro ⟨h1, -, h3⟩; exact ⟨h1, h3⟩
    · rintro ⟨h1, h3⟩; exact ⟨h1, by rw [← h3]; exact Nat.mod_le u threads, h3⟩

/-- C80, `triangle_count_v10`: every order of the atomic additions. -/
theorem triangle_count_v10 (h : Upper g Adj ∨ Lower g Adj) : Run.Gives (countV10 g) (· = (triangles g.length Adj).card) := by
  have hs := either_simple h
  rw [← sum_rows hsym h]
  refine forEachAdd_gives g _ (rowCount g) fun row hr => ?_
  have := forEachAdd_gives row (fun v => Run.lift (do let r ← vget g v.1; intersectionSize (ids row) (ids r)))
    (fun e => ((ids row).filter fun w => decide (w ∈ nbrs g e.1)).length) (fun e he => by
      obtain ⟨r, h1, -, h3⟩ := hs.entry hr he
      exact Run.gives_lift (by rw [h1, res_bind_ok, h3]) rfl)
  refine this.mono ?_
  rintro _ rfl
  rw [rowCount, ids, List.map_map]; rfl

/-- C80, `triangle_count_v13`: every stride, every way TBB splits the range and hands the parts to bodies. -/
theorem triangle_count_v13 (h : Upper g Adj ∨ Lower g Adj) (stride : Nat) (h1 : 1 ≤ stride) (h2 : stride ≤ 2 ^ 62) :
    Run.Gives (countV13 g stride) (· = (triangles g.length Adj).card) := by
  rw [← sum_rows hsym h]
  exact cyclic_gives g stride h1 h2 _ (rowCount g) fun row hr => by rw [(either_simple h).countRow hr, Nat.zero_add]

/-- C80, `triangle_count_v14`: every way TBB splits the edge range and hands the parts to bodies. -/
theorem triangle_count_v14 (h : Upper g Adj ∨ Lower g Adj) : Run.Gives (countV14 g) (· = (triangles g.length Adj).card) := by
  have hs := either_simple h
  rw [← sum_rows hsym h, ← sum_edges]
  refine parReduce_gives (elems := fun l => Ranges.rowEdges (rowAt g) l.b l.e) fun t => ?_
  obtain ⟨-, k2⟩ := Ranges.edge_range_splits (vget g) (rowAt g) 0 g.length (Nat.zero_le _) (fun u _ hu => vget_rowAt hu) t
  refine ⟨fun l hl => ?_, k2⟩
  obtain ⟨-, g2, g3⟩ := Ranges.leaves_inside _ Ranges.outerRange_halves t ⟨0, g.length⟩ (Nat.zero_le _) l hl
  exact ⟨edgeRange_gives g g2 g3, fun x hx => edgeCount_ok hs g3 hx⟩

/-- C80, `triangle_count_edgesplit`: every number of threads. -/
theorem triangle_count_edgesplit (h : Upper g Adj ∨ Lower g Adj) (c : Csr α) (hc : c.Rows g) (w threads : Nat) (ht : 0 < threads) (hw : threads < 2 ^ w)
    (he : c.numEdges < 2 ^ w) : countSplit w c threads = .ok (triangles g.length Adj).card := by
  unfold countSplit
  rw [split_ok hc ht hw he (fun row hr acc => by rw [fullRow_eq hc]; exact (either_simple h).countRow hr acc), sum_rows hsym h]

/-! ## Versions for upper triangular graphs -/

/-- C80, `triangle_count_v1`. -/
theorem triangle_count_v1 (h : Upper g Adj) : countV1 g = .ok (triangles g.length Adj).card := by
  unfold countV1
  rw [foldlM_acc g _ (rowCount g) (fun row hr acc => workerRow_upper h hr acc), Nat.zero_add, sum_rows hsym (.inl h)]

/-- C80, `triangle_count_v4`: every number of threads. -/
theorem triangle_count_v4 (h : Upper g Adj) (threads : Nat) (ht : 0 < threads) : countV4 g threads = .ok (triangles g.length Adj).card :=
  (triangle_count_parallel g Adj hsym h threads ht).2

/-- C80, `triangle_count_v5`: every number of threads. -/
theorem triangle_count_v5 (h : Upper g Adj) (w threads : Nat) (ht : 0 < threads) (hw : threads < 2 ^ w) (hn : g.length < 2 ^ w) :
    countV5 w g threads = .ok (triangles g.length Adj).card := by
  unfold countV5
  rw [async_ok (h := fun id => ((List.range' (cut g.length threads id) (cut g.length threads (id + 1) - cut g.length threads id)).map
    fun u => rowCount g (rowAt g u)).sum)]
  · rw [sum_blocks (fun u => rowCount g (rowAt g u)) (cut g.length threads) threads (fun id _ => cut_mono _ _ id), cut_last _ _ ht,
      show cut g.length threads 0 = 0 by simp [cut], Nat.sub_zero, ← sum_rows hsym (.inl h), ← List.range_eq_range']
    congr 1
    conv => rhs; rw [← map_rowAt g, List.map_map]
    rw [map_rowAt g]; rfl
  · intro tid htid
    rw [block_eq w _ _ _ ht hn hw htid, res_bind_ok]
    unfold rowsFrom
    dsimp only
    rw [foldlM_acc _ _ (fun u => rowCount g (rowAt g u)), Nat.zero_add]
    intro u hu acc
    rw [List.mem_range'] at hu
    obtain ⟨i, hi, rfl⟩ := hu
    have := cut_le g.length threads (tid + 1) (by omega)
    have hlt : cut g.length threads tid + 1 * i < g.length := by omega
    rw [vget_rowAt hlt, res_bind_ok]
    exact workerRow_upper h (by rw [rowAt_eq hlt]; exact List.getElem_mem hlt) acc

/-- C80, `triangle_count_v7`: every order of the atomic additions. -/
theorem triangle_count_v7 (h : Upper g Adj) : Run.Gives (countV7 g) (· = (triangles g.length Adj).card) := by
  rw [← sum_rows hsym (.inl h)]
  exact forEachAdd_gives g _ (rowCount g) fun row hr => Run.gives_lift (workerRow_upper h hr 0) (Nat.zero_add _)

/-- C80, `triangle_count_v12`: every stride, every way TBB splits the range and hands the parts to bodies. -/
theorem triangle_count_v12 (h : Upper g Adj) (stride : Nat) (h1 : 1 ≤ stride) (h2 : stride ≤ 2 ^ 62) :
    Run.Gives (countV12 g stride) (· = (triangles g.length Adj).card) := by
  rw [← sum_rows hsym (.inl h)]
  exact cyclic_gives g stride h1 h2 _ (rowCount g) fun row hr => by rw [workerRow_upper h hr, Nat.zero_add]

/-- C80, `triangle_count_edgesplit_upper`: every number of threads. -/
theorem triangle_count_edgesplit_upper (h : Upper g Adj) (c : Csr α) (hc : c.Rows g) (w threads : Nat) (ht : 0 < threads) (hw : threads < 2 ^ w)
    (he : c.numEdges < 2 ^ w) : countSplitUpper w c threads = .ok (triangles g.length Adj).card := by
  unfold countSplitUpper
  rw [split_ok hc ht hw he (fun row hr acc => by rw [upperRow_eq hc]; exact workerRow_upper h hr acc), sum_rows hsym (.inl h)]

omit hsym

/-! ## The hypotheses can be met -/

/-- The compressed form of the example graph. -/
def exCsr : Csr Unit := ⟨false, 4, [0, 2, 4, 5, 5], [1, 2, 2, 3, 3], [(), (), (), (), ()]⟩

theorem exCsr_rows : exCsr.Rows exUp := ⟨by decide, by decide, by decide⟩

example : countVc exCsr = .ok (triangles 4 exAdj).card := triangle_count_vc exUp exAdj exAdj_symm (.inl exUp_upper) exCsr exCsr_rows
example : countVc exCsr = .ok 2 := by decide +kernel
example : countSplit 64 exCsr 3 = .ok (triangles 4 exAdj).card :=
  triangle_count_edgesplit exUp exAdj exAdj_symm (.inl exUp_upper) exCsr exCsr_rows 64 3 (by decide) (by decide) (by decide)
example : countSplitUpper 64 exCsr 3 = .ok 2 := by decide +kernel
example : Run.Gives (countV12 exUp 8) (· = (triangles 4 exAdj).card) := triangle_count_v12 exUp exAdj exAdj_symm exUp_upper 8 (by decide) (by decide)
example : countV5 64 exUp 3 = .ok 2 ∧ countV6 exLow 3 = .ok 2 ∧ countV2 exLow = .ok 2 ∧ countV1 exUp = .ok 2 ∧ countV1 exLow = .ok 0 := by decide +kernel

end NW.Triangle
