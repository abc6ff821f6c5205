import Verif.Lemmas.Oracle
import Verif.Spec.Overlap

/-!
# Lemmas for the overlaps with a threshold
-/

namespace NW.Oracle
open Spec

variable {α : Type}

/-- Like `adjacency_rows`, with multiplicities. -/
theorem adjacency_perm [Inhabited α] (o : Csr.Oracles α) (ho : o.Ok) (directed : Bool) (idx : Nat) (hidx : idx < 2) (el : EdgeList α) (hw : el.Wf) (hb : EndpointsBelow el.numVertices el.contents) :
    ∃ g, adjacency o directed idx el = .ok g ∧ g.length = el.numVertices ∧
      ∀ u, (g.getD u []).Perm (if directed then (if idx = 0 then outEdges el.contents u else inEdges el.contents u) else outEdges el.contents u ++ inEdges el.contents u) := by
  obtain ⟨g, h1, h3, h5⟩ : ∃ g, Csr.ofEdgeList o directed idx false el = .ok g ∧ g.numVertices = el.numVertices ∧
      ∀ u, u < el.numVertices → ∃ r, g.row u = .ok r ∧ r.Perm (if directed then (if idx = 0 then outEdges el.contents u else inEdges el.contents u)
        else outEdges el.contents u ++ inEdges el.contents u) := by
    cases directed with
    | true =>
      obtain ⟨g, h1, -, h3, -, h5, -⟩ := Csr.csr_directed_build o ho el hw hb idx hidx
      exact ⟨g, h1, h3, by simpa using h5⟩
    | false =>
      obtain ⟨g, h1, -, h3, -, h5, -⟩ := Csr.csr_undirected_build o ho el hw hb idx hidx
      exact ⟨g, h1, h3, by simpa using h5⟩
  choose! f hf1 hf2 using h5
  refine ⟨(List.range el.numVertices).map f, ?_, by simp, fun u => ?_⟩
  · unfold adjacency rowsOf
    rw [h1, res_bind_ok, h3]
    exact mapM_ok_of_forall fun u hu => hf1 u (List.mem_range.1 hu)
  · rw [List.getD_eq_getElem?_getD, List.getElem?_map]
    rcases Nat.lt_or_ge u el.numVertices with hu | hu
    · rw [List.getElem?_range hu]
      exact hf2 u hu
    · rw [List.getElem?_eq_none (by simpa using hu)]
      have h2 : outEdges el.contents u = [] := by
        unfold outEdges
        rw [List.map_eq_nil_iff, List.filter_eq_nil_iff]
        intro x hx; have := (hb x hx).1; simp; omega
      have h3 : inEdges el.contents u = [] := by
        unfold inEdges
        rw [List.map_eq_nil_iff, List.filter_eq_nil_iff]
        intro x hx; have := (hb x hx).2; simp; omega
      rw [h2, h3]
      cases directed <;> simp

/-! ## The map of counts -/

/-- `K` holds, in increasing order, how often each number occurs in `l`. -/
structure Rep (K : List (Nat × Nat)) (l : List Nat) : Prop where
  sorted : K.Pairwise fun a b => a.1 < b.1
  counts : ∀ j c, (j, c) ∈ K ↔ 0 < c ∧ c = l.count j

theorem bumpKey_keys {j : Nat} {K : List (Nat × Nat)} : ∀ x ∈ bumpKey j K, x.1 = j ∨ ∃ y ∈ K, y.1 = x.1 := by
  induction K with
  | nil => intro x hx; simp [bumpKey] at hx; exact .inl (by rw [hx])
  | cons e m ih =>
    intro x hx
    unfold bumpKey at hx
    split at hx
    · rcases List.mem_cons.1 hx with rfl | hx
      · exact .inl rfl
      · exact .inr ⟨x, hx, rfl⟩
    · split at hx
      · rcases List.mem_cons.1 hx with rfl | hx
        · exact .inr ⟨x, by simp, rfl⟩
        · rcases ih x hx with h | ⟨y, hy, h⟩
          · exact .inl h
          · exact .inr ⟨y, by simp [hy], h⟩
      · rcases List.mem_cons.1 hx with rfl | hx
        · exact .inr ⟨e, by simp, rfl⟩
        · exact .inr ⟨x, by simp [hx], rfl⟩

theorem bumpKey_sorted {j : Nat} {K : List (Nat × Nat)} (h : K.Pairwise fun a b => a.1 < b.1) : (bumpKey j K).Pairwise fun a b => a.1 < b.1 := by
  induction K with
  | nil => simp [bumpKey]
  | cons e m ih =>
    have h' := List.pairwise_cons.1 h
    unfold bumpKey
    split
    · refine List.pairwise_cons.2 ⟨fun x hx => ?_, h⟩
      rcases List.mem_cons.1 hx with rfl | hx
      · assumption
      · have := h'.1 x hx; show j < x.1; omega
    · split
      · refine List.pairwise_cons.2 ⟨fun x hx => ?_, ih h'.2⟩
        rcases bumpKey_keys x hx with h | ⟨y, hy, h⟩
        · rw [h]; assumption
        · rw [← h]; exact h'.1 y hy
      · exact List.pairwise_cons.2 ⟨h'.1, h'.2⟩

theorem bumpKey_mem {j : Nat} {K : List (Nat × Nat)} (h : K.Pairwise fun a b => a.1 < b.1) (i c : Nat) :
    (i, c) ∈ bumpKey j K ↔ if i = j then (∃ d, (j, d) ∈ K ∧ c = d + 1) ∨ ((∀ d, (j, d) ∉ K) ∧ c = 1) else (i, c) ∈ K := by
  induction K with
  | nil =>
    simp only [bumpKey, List.mem_singleton, Prod.mk.injEq, List.not_mem_nil, not_false_eq_true, implies_true, true_and, false_and, exists_false, false_or]
    by_cases hij : i = j
    · rw [if_pos hij]; exact ⟨fun h => h.2, fun h => ⟨hij, h⟩⟩
    · rw [if_neg hij]; simp [hij]
  | cons e m ih =>
    have h' := List.pairwise_cons.1 h
    obtain ⟨k, d⟩ := e
    have hnot : ∀ c, (k, c) ∉ m := fun c hc => by have := h'.1 _ hc; simp at this
    unfold bumpKey
    dsimp only
    split
    · rename_i hlt
      have hno : ∀ d', (j, d') ∉ (k, d) :: m := by
        intro d' hd'
        rcases List.mem_cons.1 hd' with heq | hd'
        · simp only [Prod.mk.injEq] at heq; omega
        · have := h'.1 _ hd'; simp at this; omega
      by_cases hij : i = j
      · subst hij
        rw [if_pos rfl, List.mem_cons]
        constructor
        · rintro (heq | hm)
          · simp only [Prod.mk.injEq] at heq; exact .inr ⟨hno, heq.2⟩
          · exact absurd hm (hno _)
        · rintro (⟨d', hd', -⟩ | ⟨-, rfl⟩)
          · exact absurd hd' (hno _)
          · exact .inl rfl
      · rw [if_neg hij, List.mem_cons]
        simp [hij]
    · split
      · rename_i hlt
        rw [List.mem_cons, ih h'.2]
        have hjk : j ≠ k := by omega
        by_cases hij : i = j
        · subst hij
          rw [if_pos rfl, if_pos rfl]
          simp [hjk]
        · rw [if_neg hij, if_neg hij, List.mem_cons]
      · have hjk : j = k := by omega
        subst hjk
        by_cases hij : i = j
        · subst hij
          rw [if_pos rfl]
          constructor
          · intro hm
            rcases List.mem_cons.1 hm with heq | hm
            · simp only [Prod.mk.injEq] at heq; exact .inl ⟨d, by simp, heq.2⟩
            · exact absurd hm (hnot _)
          · rintro (⟨d', hd', rfl⟩ | ⟨hno, -⟩)
            · rcases List.mem_cons.1 hd' with heq | hd'
              · simp only [Prod.mk.injEq] at heq; rw [heq.2]; simp
              · exact absurd hd' (hnot _)
            · exact absurd (by simp) (hno d)
        · rw [if_neg hij]
          simp [hij]

theorem Rep.bump {K : List (Nat × Nat)} {l : List Nat} (h : Rep K l) (j : Nat) : Rep (bumpKey j K) (l ++ [j]) := by
  refine ⟨bumpKey_sorted h.sorted, fun i c => ?_⟩
  rw [bumpKey_mem h.sorted, List.count_append]
  by_cases hij : i = j
  · subst hij
    rw [if_pos rfl, List.count_singleton_self]
    constructor
    · rintro (⟨d, hd, rfl⟩ | ⟨hno, rfl⟩)
      · have := (h.counts i d).1 hd; omega
      · have : l.count i = 0 := by
          rcases Nat.eq_zero_or_pos (l.count i) with h0 | h0
          · exact h0
          · exact absurd ((h.counts i _).2 ⟨h0, rfl⟩) (hno _)
        omega
    · rintro ⟨hc, rfl⟩
      rcases Nat.eq_zero_or_pos (l.count i) with h0 | h0
      · refine .inr ⟨fun d hd => ?_, by omega⟩
        have := (h.counts i d).1 hd; omega
      · exact .inl ⟨_, (h.counts i _).2 ⟨h0, rfl⟩, rfl⟩
  · rw [if_neg hij, h.counts, List.count_singleton]
    simp [show ¬ j = i from fun e => hij e.symm]

theorem rep_row {i : Nat} (c : List (Nat × Unit)) {K : List (Nat × Nat)} {l : List Nat} (h : Rep K l) :
    Rep (c.foldl (fun K j => if i < j.1 then bumpKey j.1 K else K) K) (l ++ (c.map (·.1)).filter fun j => decide (i < j)) := by
  induction c generalizing K l with
  | nil => simpa using h
  | cons x c ih =>
    rw [List.foldl_cons, List.map_cons, List.filter_cons]
    by_cases hx : i < x.1
    · rw [if_pos hx, if_pos (by simpa using hx)]
      have := ih (h.bump x.1)
      rwa [List.append_assoc] at this
    · rw [if_neg hx, if_neg (by simpa using hx)]
      exact ih h

/-- `K` for one `i` counts the entries of the rows of `G` that the row of `i` leads to. -/
theorem overlapCounts_ok {G H : Rows Unit} (hH : InRange H) (hlen : G.length = H.length) {i : Nat} (hi : i < H.length) :
    ∃ K, overlapCounts G H i = .ok K ∧ Rep K ((H.getD i []).flatMap fun k => ((G.getD k.1 []).map (·.1)).filter fun j => decide (i < j)) := by
  unfold overlapCounts
  rw [Bfs.vget_row hi, res_bind_ok]
  refine foldlM_list_inv (fun (pre : List (Nat × Unit)) (K : List (Nat × Nat)) => Rep K (pre.flatMap fun k => ((G.getD k.1 []).map (·.1)).filter fun j => decide (i < j))) (show Rep [] [] from ⟨List.Pairwise.nil, fun j c => by simp; omega⟩) ?_
  intro pre k post hl K hK
  have hkG : k.1 < G.length := by rw [hlen]; exact hH i k.1 (List.mem_map_of_mem (by rw [hl]; simp))
  rw [Bfs.vget_row hkG, res_bind_ok]
  refine ⟨_, rfl, ?_⟩
  rw [List.flatMap_append, List.flatMap_singleton]
  exact rep_row _ hK

/-- The list of overlaps. -/
theorem overlapAtLeast_ok (sched : List Nat → List Nat) (hs : IsSchedule sched) {w B : Nat} (hB : B < 2 ^ w) (s : Nat) (hs0 : 0 < s) (G H : Rows Unit) (hG : InRange G) (hH : InRange H) (hlen : G.length = H.length) (hlt : G.length ≤ B) :
    ∃ el, overlapAtLeast sched w s G H = .ok el ∧ el.Wf ∧ EndpointsBelow el.numVertices el.contents ∧ el.contents.Nodup ∧
      ∀ i j u, (i, j, u) ∈ el.contents ↔ i < j ∧ s ≤ ((H.getD i []).flatMap fun k => (G.getD k.1 []).map (·.1)).count j := by
  have hK : ∀ i, ∃ K, i < H.length → overlapCounts G H i = .ok K ∧ Rep K ((H.getD i []).flatMap fun k => ((G.getD k.1 []).map (·.1)).filter fun j => decide (i < j)) := fun i => by
    by_cases hi : i < H.length
    · obtain ⟨K, h⟩ := overlapCounts_ok hH hlen hi
      exact ⟨K, fun _ => h⟩
    · exact ⟨[], fun h => absurd h hi⟩
  choose K hK1 using hK
  have hmem : ∀ i, i < H.length → ∀ j c, (j, c) ∈ K i ↔ 0 < c ∧ i < j ∧ c = ((H.getD i []).flatMap fun k => (G.getD k.1 []).map (·.1)).count j := by
    intro i hi j c
    rw [(hK1 i hi).2.counts]
    have : (List.flatMap (fun k => List.filter (fun j => decide (i < j)) (List.map (fun x => x.1) (List.getD G k.1 []))) (List.getD H i [])) =
        (List.flatMap (fun k => (List.map (fun x => x.1) (List.getD G k.1 []))) (List.getD H i [])).filter fun j => decide (i < j) := by
      rw [List.filter_flatMap]
    rw [this]
    by_cases hij : i < j
    · rw [List.count_filter (by simpa using hij)]; simp [hij]
    · rw [List.count_eq_zero_of_not_mem (by simp [hij])]
      constructor
      · rintro ⟨h1, h2⟩; omega
      · rintro ⟨-, h1, -⟩; exact absurd h1 hij
  have hsch : ∀ i, i ∈ sched (List.range H.length) ↔ i < H.length := fun i => by rw [(hs _).mem_iff, List.mem_range]
  obtain ⟨el, e1, e2⟩ := foldlM_good (B := B) (f := fun el i => do
      let K ← overlapCounts G H i
      K.foldlM (fun el e => if s ≤ e.2 then el.pushBack w i e.1 () else .ok el) el)
    (g := fun i => (K i).flatMap fun e => if s ≤ e.2 then [(i, e.1, ())] else [])
    (sched (List.range H.length)) (fun i hi el es hg => by
      have hi := (hsch i).1 hi
      rw [(hK1 i hi).1, res_bind_ok]
      refine foldlM_good _ (fun e he el es hg => ?_) hg
      by_cases hc : s ≤ e.2
      · rw [if_pos hc, if_pos hc]
        have hm := (hmem i hi e.1 e.2).1 he
        have : e.1 < G.length := by
          have : e.1 ∈ (H.getD i []).flatMap fun k => (G.getD k.1 []).map (·.1) := List.count_pos_iff.1 (by omega)
          obtain ⟨k, -, hk⟩ := List.mem_flatMap.1 this
          exact hG k.1 e.1 hk
        exact hg.push hB (by omega) (by omega) _
      · rw [if_neg hc, if_neg hc]
        exact ⟨el, rfl, by simpa using hg⟩) (good_new B)
  have hcont : el.contents = (sched (List.range H.length)).flatMap fun i => (K i).flatMap fun e => if s ≤ e.2 then [(i, e.1, ())] else [] := by
    rw [e2.contents, List.nil_append]
  have hform : ∀ i (x : Nat × Nat × Unit), x ∈ ((K i).flatMap fun e => if s ≤ e.2 then [(i, e.1, ())] else []) ↔ x.1 = i ∧ ∃ c, (x.2.1, c) ∈ K i ∧ s ≤ c := by
    rintro i ⟨a, b, ⟨⟩⟩
    rw [List.mem_flatMap]
    constructor
    · rintro ⟨e, he, hx⟩
      split at hx
      · simp only [List.mem_singleton, Prod.mk.injEq, and_true] at hx
        exact ⟨hx.1, e.2, by rw [show ((a, b, ()) : Nat × Nat × Unit).2.1 = e.1 from hx.2]; exact he, by assumption⟩
      · simp at hx
    · rintro ⟨rfl, c, hc, hsc⟩
      exact ⟨(b, c), hc, by rw [if_pos hsc]; simp⟩
  refine ⟨el.closeForPushBack, ?_, e2.wf, ?_, ?_, fun i j u => ?_⟩
  · unfold overlapAtLeast
    rw [e1, res_bind_ok]; rfl
  · have := e2.below
    rw [← e2.contents] at this
    exact this
  · show el.contents.Nodup
    rw [hcont, List.nodup_flatMap]
    refine ⟨fun i hi => ?_, ?_⟩
    · rw [List.nodup_flatMap]
      refine ⟨fun e _ => by split <;> simp, (hK1 i ((hsch i).1 hi)).2.sorted.imp fun {a b} hab => ?_⟩
      intro x hx hy
      dsimp only at hx hy
      split at hx
      · split at hy
        · simp only [List.mem_singleton] at hx hy
          rw [hx] at hy
          simp only [Prod.mk.injEq, and_true, true_and] at hy
          omega
        · simp at hy
      · simp at hx
    · have hnd : (sched (List.range H.length)).Nodup := (hs _).nodup_iff.2 List.nodup_range
      refine List.Pairwise.imp (fun {a b} hab => ?_) hnd
      intro x hx hy
      exact hab (by rw [← ((hform a x).1 hx).1, ((hform b x).1 hy).1])
  · show (i, j, u) ∈ el.contents ↔ _
    rw [hcont, List.mem_flatMap]
    constructor
    · rintro ⟨i', hi', hx⟩
      obtain ⟨rfl, c, hc, hsc⟩ := (hform i' _).1 hx
      have := (hmem i ((hsch i).1 hi') j c).1 hc
      exact ⟨this.2.1, by omega⟩
    · rintro ⟨hij, hsc⟩
      have hi : i < H.length := by
        rcases Nat.lt_or_ge i H.length with h | h
        · exact h
        · rw [show H.getD i [] = [] by rw [List.getD_eq_getElem?_getD, List.getElem?_eq_none h]; rfl] at hsc
          simp at hsc; omega
      exact ⟨i, (hsch i).2 hi, (hform i _).2 ⟨rfl, _, (hmem i hi j _).2 ⟨by omega, hij, rfl⟩, hsc⟩⟩

/-- What is counted is what the rows share. -/
theorem count_shared {es : List (Nat × Nat × Unit)} {G H : Rows Unit} (hH : ∀ u, (H.getD u []).Perm (outEdges es u)) (hG : ∀ u, (G.getD u []).Perm (inEdges es u)) (i j : Nat) :
    ((H.getD i []).flatMap fun k => (G.getD k.1 []).map (·.1)).count j = shared es i j := by
  rw [((hH i).flatMap_right _).count_eq]
  unfold shared outEdges
  rw [List.count_flatMap, List.map_map]
  congr 1
  refine List.map_congr_left fun e he => ?_
  simp only [Function.comp_apply]
  rw [((hG e.2.1).map _).count_eq]
  unfold inEdges
  rw [List.map_map, List.count_eq_countP, List.countP_map, List.countP_filter, List.countP_eq_length_filter]
  congr 1

theorem filter_length_swap {β γ : Type} (l : List β) (m : List γ) (p : β → γ → Bool) : (l.map fun x => (m.filter (p x)).length).sum = (m.map fun y => (l.filter fun x => p x y).length).sum := by
  induction l with
  | nil => simp
  | cons x l ih =>
    rw [List.map_cons, List.sum_cons, ih]
    clear ih
    induction m with
    | nil => simp
    | cons y m ih =>
      simp only [List.map_cons, List.sum_cons, List.filter_cons] at ih ⊢
      by_cases h : p x y
      · simp only [h, if_true, List.length_cons]; omega
      · simp only [h]; simp; omega

theorem shared_comm {α : Type} (es : List (Nat × Nat × α)) (i j : Nat) : shared es i j = shared es j i := by
  have h : ∀ a b, shared es a b = ((es.filter fun e => decide (e.1 = a)).map fun e => ((es.filter fun e => decide (e.1 = b)).filter fun f => decide (f.2.1 = e.2.1)).length).sum := by
    intro a b
    unfold shared
    congr 1
    refine List.map_congr_left fun e _ => ?_
    rw [List.filter_filter]
    congr 1
    refine List.filter_congr fun f _ => ?_
    rw [Bool.and_comm]
  rw [h, h, filter_length_swap]
  congr 1
  refine List.map_congr_left fun e _ => ?_
  congr 1
  refine List.filter_congr fun f _ => ?_
  simp [eq_comm]

end NW.Oracle
