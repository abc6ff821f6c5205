import Verif.Lemmas.SpanningForest
import Mathlib.Algebra.Order.Ring.Int

/-! # Property C38: minimum spanning forests -/

namespace NW.Dsu
open Spec

variable {W : Type}

/-- The total weight. -/
def weight [AddCommMonoid W] (l : List (Nat × Nat × W)) : W := (l.map fun e => e.2.2).sum

/-- The state after the sorted edges `pre`. -/
structure KInv [LinearOrder W] (n : Nat) (pre : List (Nat × Nat × W)) (st : Subsets × List (Nat × Nat × W)) : Prop where
  rep : Rep n (ends pre) st.1
  sub : st.2.Sublist pre
  forest : IsForest st.2
  spans : Spans st.2 pre
  below : ∀ w, Spans (st.2.filter fun e => decide (e.2.2 ≤ w)) (pre.filter fun e => decide (e.2.2 ≤ w))

theorem kruskal_loop [LinearOrder W] {l : List (Nat × Nat × W)} (hl : l.Pairwise fun x y => x.2.2 ≤ y.2.2) {n : Nat}
    (hn : ∀ e ∈ l, e.1 < n ∧ e.2.1 < n) : Run.Gives (l.foldlM kruskalStep (singletons n, [])) (KInv n l) := by
  refine Run.gives_foldlM (KInv n) ⟨rep_singletons n, List.Sublist.refl _, ?_, fun _ _ => Iff.rfl, fun _ _ _ => Iff.rfl⟩ ?_
  · intro i e h; simp at h
  rintro pre y post rfl ⟨s, T⟩ hi
  obtain ⟨h1, h2, h3, h4, h5⟩ := hi
  simp only at h1 h2 h3 h4 h5
  have hy := hn y (by simp)
  have hle : ∀ e ∈ pre, e.2.2 ≤ y.2.2 := fun e he => (List.pairwise_append.1 hl).2.2 e he y (by simp)
  unfold kruskalStep
  refine (unionFind_gives h1 hy.1 hy.2).bind ?_
  rintro ⟨s', b⟩ ⟨h6, h7⟩
  simp only at h6 h7 ⊢
  have hsame : ∀ {x z}, Conn (Pairs (ends (T ++ [y]))) x z ↔ Conn (Pairs (ends (pre ++ [y]))) x z := by
    intro x z
    constructor
    · intro hc
      exact hc.lift fun a b' hab => Conn.of (by
        obtain ⟨q, hq, he⟩ := List.mem_map.1 hab
        refine List.mem_map.2 ⟨q, ?_, he⟩
        rcases List.mem_append.1 hq with hq | hq
        · simp [h2.subset hq]
        · exact List.mem_append_right _ hq)
    · intro hc
      refine hc.lift fun a b' hab => ?_
      obtain ⟨q, hq, he⟩ := List.mem_map.1 hab
      have hsub : ∀ {x z}, Conn (Pairs (ends T)) x z → Conn (Pairs (ends (T ++ [y]))) x z := by
        intro x z
        refine conn_mono fun p hp => ?_
        rw [ends_append]; exact List.mem_append_left _ hp
      rcases List.mem_append.1 hq with hq | hq
      · exact hsub ((h4 _ _).2 (Conn.of (List.mem_map.2 ⟨q, hq, he⟩)))
      · exact Conn.of (List.mem_map.2 ⟨q, List.mem_append_right _ hq, he⟩)
  have hspans : Spans (if b then T ++ [y] else T) (pre ++ [y]) := by
    intro x z
    cases b with
    | true => exact hsame
    | false =>
      have hc : Conn (Pairs (ends pre)) y.1 y.2.1 := by
        by_contra hne
        exact absurd (h7.2 hne) (by simp)
      simp only [Bool.false_eq_true, if_false]
      rw [h4]
      constructor
      · refine conn_mono fun p hp => ?_
        rw [ends_append]; exact List.mem_append_left _ hp
      · intro hxz
        rw [ends_append] at hxz
        rcases conn_add hxz with h | ⟨h, h'⟩ | ⟨h, h'⟩
        · exact h
        · exact (h.trans hc).trans h'
        · exact (h.trans hc.symm).trans h'
  refine Run.gives_pure ⟨?_, ?_, ?_, hspans, ?_⟩
  · rw [ends_append]; exact h6
  · cases b with
    | true => exact h2.append (List.Sublist.refl _)
    | false => exact h2.trans (List.sublist_append_left _ _)
  · cases b with
    | true => exact h3.append fun hc => (h7.1 rfl) ((h4 _ _).1 hc)
    | false => exact h3
  · intro w
    by_cases c : y.2.2 ≤ w
    · have e1 : (pre ++ [y]).filter (fun e => decide (e.2.2 ≤ w)) = pre ++ [y] := by
        rw [List.filter_eq_self]
        intro e he
        rw [decide_eq_true_eq]
        rcases List.mem_append.1 he with he | he
        · exact le_trans (hle e he) c
        · rw [List.mem_singleton] at he; rw [he]; exact c
      have e2 : (if b then T ++ [y] else T).filter (fun e => decide (e.2.2 ≤ w)) = if b then T ++ [y] else T := by
        rw [List.filter_eq_self]
        intro e he
        rw [decide_eq_true_eq]
        have hT : ∀ e ∈ T, e.2.2 ≤ w := fun e he => le_trans (hle e (h2.subset he)) c
        cases b with
        | true =>
          rcases List.mem_append.1 he with he | he
          · exact hT e he
          · rw [List.mem_singleton] at he; rw [he]; exact c
        | false => exact hT e he
      show Spans ((if b then T ++ [y] else T).filter _) _
      rw [e1, e2]; exact hspans
    · have e1 : (pre ++ [y]).filter (fun e => decide (e.2.2 ≤ w)) = pre.filter fun e => decide (e.2.2 ≤ w) := by
        rw [List.filter_append]; simp [c]
      have e2 : (if b then T ++ [y] else T).filter (fun e => decide (e.2.2 ≤ w)) = T.filter fun e => decide (e.2.2 ≤ w) := by
        cases b with
        | true => simp only [if_true]; rw [List.filter_append]; simp [c]
        | false => rfl
      show Spans ((if b then T ++ [y] else T).filter _) _
      rw [e1, e2]; exact h5 w

theorem exists_sorted [LinearOrder W] (E : List (Nat × Nat × W)) :
    ∃ l : List (Nat × Nat × W), l.Perm E ∧ l.Pairwise fun x y => x.2.2 ≤ y.2.2 := by
  refine ⟨E.mergeSort fun a b => decide (a.2.2 ≤ b.2.2), List.mergeSort_perm _ _, ?_⟩
  have := List.pairwise_mergeSort (le := fun a b : Nat × Nat × W => decide (a.2.2 ≤ b.2.2)) (fun a b c h1 h2 => by simp at *; exact le_trans h1 h2)
    (fun a b => by simp; exact le_total a.2.2 b.2.2) E
  exact this.imp fun h => by simpa using h

/-- C38, with the missing hypothesis.  If every vertex id is less than the number of edges, then for every conforming sort `kruskal` returns edges of
the input that form a forest, connect what the input connects, and have the least total weight among such selections.
Missing from the full property: inputs with a vertex id that is not less than the number of edges, see `kruskal_outOfBounds`. -/
theorem kruskal_partial [AddCommMonoid W] [LinearOrder W] [IsOrderedAddMonoid W] (E : List (Nat × Nat × W))
    (hE : ∀ e ∈ E, e.1 < E.length ∧ e.2.1 < E.length) :
    Run.Gives (kruskal E) fun T => SubEdges T E ∧ IsForest T ∧ Spans T E ∧
      ∀ F, SubEdges F E → IsForest F → Spans F E → weight T ≤ weight F := by
  unfold kruskal
  refine (Run.gives_choose (exists_sorted E) (fun l hl => hl)).bind ?_
  rintro l ⟨hp, hs⟩
  refine (kruskal_loop hs fun e he => hE e (hp.subset he)).bind ?_
  rintro ⟨s, T⟩ ⟨h1, h2, h3, h4, h5⟩
  simp only at h1 h2 h3 h4 h5 ⊢
  have hends : ∀ {A B : List (Nat × Nat × W)}, A.Subperm B → ∀ x y, Conn (Pairs (ends A)) x y → Conn (Pairs (ends B)) x y := by
    intro A B hAB x y
    refine conn_mono fun p hp => ?_
    obtain ⟨q, hq, rfl⟩ := List.mem_map.1 hp
    exact List.mem_map.2 ⟨q, hAB.subset hq, rfl⟩
  have hspan : Spans T E := fun x y => (h4 x y).trans ⟨hends hp.subperm x y, hends hp.symm.subperm x y⟩
  have hTE : SubEdges T E := h2.subperm.trans hp.subperm
  refine Run.gives_pure ⟨hTE, h3, hspan, ?_⟩
  intro F hF1 hF2 hF3
  have hTn : ∀ e ∈ T, e.1 < E.length ∧ e.2.1 < E.length := fun e he => hE e (hTE.subset he)
  have hFn : ∀ e ∈ F, e.1 < E.length ∧ e.2.1 < E.length := fun e he => hE e (hF1.subset he)
  unfold weight
  refine sum_le_of_counts ?_ ?_
  · rw [List.length_map, List.length_map]
    refine Nat.le_antisymm ?_ ?_
    · exact h3.length_le hF2 hTn hFn fun x y hc => (hF3 x y).2 ((hspan x y).1 hc)
    · exact hF2.length_le h3 hFn hTn fun x y hc => (hspan x y).2 ((hF3 x y).1 hc)
  · intro w
    rw [List.filter_map, List.filter_map, List.length_map, List.length_map]
    refine IsForest.length_le (n := E.length) (hF2.sublist List.filter_sublist) (h3.sublist List.filter_sublist)
      (fun e he => hFn e (List.mem_of_mem_filter he)) (fun e he => hTn e (List.mem_of_mem_filter he)) ?_
    intro x y hc
    refine (h5 w x y).2 ?_
    refine hends ((hF1.trans hp.symm.subperm).filter _) x y ?_
    exact hc

/-! ## The number of edges is not the number of vertices -/

theorem find_faults {s : Subsets} {v : Nat} (h : s.length ≤ v) : Run.Faults (disjointFind s v) .outOfBounds :=
  (Run.faults_lift (vget_of_ge h)).bind

theorem foldlM_faults {σ α : Type} {f : σ → α → Run σ} {pre post : List α} {x : α} {s : σ} {I : σ → Prop} {e : Fault}
    (h1 : Run.Gives (pre.foldlM f s) I) (h2 : ∀ s, I s → Run.Faults (f s x) e) : Run.Faults ((pre ++ x :: post).foldlM f s) e := by
  have assoc : ∀ (l l' : List α) s, (∀ o, (l ++ l').foldlM f s o ↔ (l.foldlM f s >>= fun s => l'.foldlM f s) o) := by
    intro l l'
    induction l with
    | nil =>
      intro s o
      constructor
      · intro h; exact Or.inl ⟨s, rfl, h⟩
      · rintro (⟨a, ha, ho⟩ | ⟨g, hg, -⟩)
        · cases ha; exact ho
        · cases hg
    | cons y l ih =>
      intro s o
      rw [List.cons_append, List.foldlM_cons, List.foldlM_cons]
      constructor
      · rintro (⟨a, ha, ho⟩ | ⟨g, hg, rfl⟩)
        · rcases (ih a o).1 ho with ⟨b, hb, ho⟩ | ⟨g, hg, rfl⟩
          · exact Or.inl ⟨b, Or.inl ⟨a, ha, hb⟩, ho⟩
          · exact Or.inr ⟨g, Or.inl ⟨a, ha, hg⟩, rfl⟩
        · exact Or.inr ⟨g, Or.inr ⟨g, hg, rfl⟩, rfl⟩
      · rintro (⟨a, ⟨b, hb, ha⟩ | ⟨g, hg, hga⟩, ho⟩ | ⟨g, ⟨b, hb, hg⟩ | ⟨g', hg', hgg⟩, rfl⟩)
        · exact Or.inl ⟨b, hb, (ih b o).2 (Or.inl ⟨a, ha, ho⟩)⟩
        · cases hga
        · exact Or.inl ⟨b, hb, (ih b _).2 (Or.inr ⟨g, hg, rfl⟩)⟩
        · cases hgg; exact Or.inr ⟨g, hg', rfl⟩
  have hf : Run.Faults (pre.foldlM f s >>= fun s => (x :: post).foldlM f s) e := h1.bind_faults fun s hs => by
    rw [List.foldlM_cons]; exact (h2 s hs).bind
  refine ⟨?_, ?_⟩
  · obtain ⟨o, ho⟩ := hf.1
    exact ⟨o, (assoc _ _ _ _).2 ho⟩
  · intro o ho
    exact hf.2 o ((assoc _ _ _ _).1 ho)

/-- C38 fails otherwise: if some vertex id is not less than the number of edges, every run of `kruskal` reads outside its vector. -/
theorem kruskal_outOfBounds [LinearOrder W] (E : List (Nat × Nat × W)) (h : ∃ e ∈ E, E.length ≤ e.1 ∨ E.length ≤ e.2.1) :
    Run.Faults (kruskal E) .outOfBounds := by
  unfold kruskal
  refine (Run.gives_choose (exists_sorted E) (fun l hl => hl)).bind_faults ?_
  rintro l ⟨hp, hs⟩
  refine Run.Faults.bind ?_
  obtain ⟨pre, y, post, rfl, hpre, hy⟩ : ∃ pre y post, l = pre ++ y :: post ∧ (∀ e ∈ pre, e.1 < E.length ∧ e.2.1 < E.length) ∧
      (E.length ≤ y.1 ∨ E.length ≤ y.2.1) := by
    obtain ⟨e, he, hbad⟩ := h
    have he := hp.symm.subset he
    clear hs hp
    induction l with
    | nil => simp at he
    | cons a l ih =>
      by_cases c : E.length ≤ a.1 ∨ E.length ≤ a.2.1
      · exact ⟨[], a, l, rfl, by simp, c⟩
      · rcases List.mem_cons.1 he with rfl | he
        · exact absurd hbad c
        · obtain ⟨pre, y, post, rfl, h1, h2⟩ := ih he
          refine ⟨a :: pre, y, post, rfl, ?_, h2⟩
          intro e he
          rcases List.mem_cons.1 he with rfl | he
          · omega
          · exact h1 e he
  refine foldlM_faults (kruskal_loop (hs.sublist (List.sublist_append_left _ _)) hpre) ?_
  rintro ⟨s, T⟩ hi
  have hrep : Rep E.length (ends pre) s := hi.rep
  unfold kruskalStep disjointUnionFind
  refine Run.Faults.bind ?_
  by_cases c : E.length ≤ y.1
  · exact (find_faults (by rw [hrep.len]; exact c)).bind
  · refine (find_gives hrep.wf (by rw [hrep.len]; omega)).bind_faults ?_
    rintro ⟨s1, a⟩ ⟨h1, -⟩
    have h1 : Same s s1 := h1
    exact (find_faults (by rw [h1.len, hrep.len]; omega)).bind

/-! ## The hypotheses can be met: a weighted square with a diagonal; and a path, which has fewer edges than vertices -/

def exE : List (Nat × Nat × Int) := [(0, 1, 4), (1, 2, 1), (2, 3, 2), (3, 0, 3), (0, 2, -5)]

example : ∀ e ∈ exE, e.1 < exE.length ∧ e.2.1 < exE.length := by decide

example : Run.Faults (kruskal [(0, 1, (7 : Int)), (1, 2, 8)]) .outOfBounds :=
  kruskal_outOfBounds _ ⟨(1, 2, 8), by simp, by decide⟩

end NW.Dsu
