import Verif.Lemmas.ApbSearch

/-! # C129: the searches of the abstraction penalty benchmarks -/

namespace NW.Apb
open Spec

variable {α : Type}

/-- `visited` marks exactly the vertices that can be reached from `seed`. -/
def MarksReachable (g : Rows α) (seed : Nat) (visited : List Bool) : Prop :=
  visited.length = g.length ∧ ∀ v, visited[v]? = some true ↔ Reachable g seed v

theorem row_nbrs {g : Rows α} {v : Nat} (hv : v < g.length) : vget g v = .ok g[v] ∧ g[v].map Prod.fst = nbrs g v := by
  refine ⟨vget_of_lt hv, ?_⟩
  rw [nbrs, List.getD_eq_getElem?_getD, List.getElem?_eq_getElem hv]; rfl

theorem not_marked_replicate (n v : Nat) : ¬ Marked (List.replicate n false) v := by
  unfold Marked
  rw [List.getElem?_replicate]
  split <;> simp

/-- Marks closed under edges that contain the seed contain everything that can be reached. -/
theorem marks_all {g : Rows α} {seed : Nat} {visited : List Bool} (h0 : Marked visited seed) (hc : ∀ u v, Marked visited u → Edge g u v → Marked visited v) {v : Nat}
    (h : Reachable g seed v) : Marked visited v := by
  obtain ⟨k, hw⟩ := h
  induction hw with
  | nil => exact h0
  | snoc _ he ih => exact hc _ _ ih he

/-- C129, breadth-first: from a vertex of the graph the search ends, accesses nothing out of bounds and marks exactly the vertices that can be reached. -/
theorem bfs_marks (g : Rows α) (hg : InRange g) (seed : Nat) (hs : seed < g.length) : ∃ visited, Bfs g seed (.ok visited) ∧ MarksReachable g seed visited := by
  unfold Bfs
  rw [vset_of_lt (by simpa using hs)]
  simp only
  have key := Loop.total (body := bfsBody g)
    (fun st : List Bool × List Nat => st.1.length = g.length ∧ Marked st.1 seed ∧ (∀ v, Marked st.1 v → Reachable g seed v) ∧ (∀ v ∈ st.2, Marked st.1 v) ∧
      ∀ u v, Marked st.1 u → Edge g u v → Marked st.1 v ∨ u ∈ st.2)
    (fun st => 2 * fresh st.1 + st.2.length) ?_ ((List.replicate g.length false).set seed true, [seed]) ?_
  · obtain ⟨⟨visited, q⟩, r, ⟨h1, h2, h3, h4, h5⟩, hb, hl⟩ := key
    have hq : q = [] ∧ visited = r := by
      cases q with
      | nil => simp [bfsBody] at hb; exact ⟨rfl, hb⟩
      | cons v q =>
        simp only [bfsBody] at hb
        cases hr : vget g v with
        | error f => simp [hr] at hb
        | ok row =>
          rw [hr, res_bind_ok] at hb
          cases hf : (row.map Prod.fst).foldlM bfsEdge (visited, q) with
          | error f => simp [hf] at hb
          | ok st => simp [hf] at hb
    obtain ⟨rfl, rfl⟩ := hq
    refine ⟨visited, hl, h1, fun v => ⟨h3 v, fun hv => marks_all h2 (fun u w hu he => ?_) hv⟩⟩
    rcases h5 u w hu he with h | h
    · exact h
    · simp at h
  · rintro ⟨visited, q⟩ ⟨h1, h2, h3, h4, h5⟩
    simp only at h1 h2 h3 h4 h5
    cases q with
    | nil => exact .inr ⟨visited, rfl⟩
    | cons v q =>
      refine .inl ?_
      have hm := h4 v (by simp)
      have hv : v < g.length := by
        obtain ⟨h, -⟩ := List.getElem?_eq_some_iff.1 hm
        omega
      obtain ⟨e1, e2⟩ := row_nbrs hv
      obtain ⟨vis', new, k1, k2, k3, k4, k5⟩ := bfs_edges (nbrs g v) visited q (fun n hn => by rw [h1]; exact hg v n hn)
      refine ⟨(vis', q ++ new), ?_, ⟨k2.trans h1, (k3 _).2 (.inl h2), ?_, ?_, ?_⟩, ?_⟩
      · simp only [bfsBody]
        rw [e1, res_bind_ok, e2, k1, res_bind_ok]; rfl
      · intro w hw
        rcases (k3 w).1 hw with h | h
        · exact h3 w h
        · obtain ⟨k, hk⟩ := h3 v hm
          exact ⟨k + 1, .snoc hk h⟩
      · intro w hw
        rcases List.mem_append.1 hw with h | h
        · exact (k3 w).2 (.inl (h4 w (by simp [h])))
        · exact (k3 w).2 (.inr ((k4 w).1 h).1)
      · intro u w hu he
        by_cases cu : Marked visited u
        · rcases h5 u w cu he with h | h
          · exact .inl ((k3 w).2 (.inl h))
          · rcases List.mem_cons.1 h with rfl | h
            · exact .inl ((k3 w).2 (.inr he))
            · exact .inr (by simp [h])
        · rcases (k3 u).1 hu with h | h
          · exact absurd h cu
          · exact .inr (List.mem_append.2 (.inr ((k4 u).2 ⟨h, cu⟩)))
      · simp only [List.length_append, List.length_cons]; omega
  · have hlen : seed < (List.replicate g.length false).length := by simpa using hs
    refine ⟨by simp, (marked_set hlen).2 (.inl rfl), ?_, ?_, ?_⟩
    · intro v hv
      rcases (marked_set hlen).1 hv with rfl | h
      · exact ⟨0, .nil⟩
      · exact absurd h (not_marked_replicate _ _)
    · intro v hv; simp only [List.mem_singleton] at hv; exact (marked_set hlen).2 (.inl hv)
    · intro u v hu _
      rcases (marked_set hlen).1 hu with rfl | h
      · exact .inr (by simp)
      · exact absurd h (not_marked_replicate _ _)

/-- Whether the next vertex has been visited before. -/
def again (st : List Bool × List Nat) : Nat :=
  match st.2 with
  | [] => 0
  | v :: _ => if Marked st.1 v then 1 else 0

/-- C129, depth-first: the same, although vertices that were visited before are expanded again. -/
theorem dfs_marks (g : Rows α) (hg : InRange g) (seed : Nat) (hs : seed < g.length) : ∃ visited, Dfs g seed (.ok visited) ∧ MarksReachable g seed visited := by
  unfold Dfs
  have key := Loop.totalWf (body := dfsBody g)
    (fun st : List Bool × List Nat => st.1.length = g.length ∧ (Marked st.1 seed ∨ seed ∈ st.2) ∧ (∀ v, Marked st.1 v → Reachable g seed v) ∧
      (∀ v ∈ st.2, Reachable g seed v) ∧ ∀ u v, Marked st.1 u → Edge g u v → Marked st.1 v ∨ v ∈ st.2)
    (fun st => (fresh st.1, again st, st.2.length))
    (Prod.lex Nat.lt_wfRel (Prod.lex Nat.lt_wfRel Nat.lt_wfRel)).wf ?_ (List.replicate g.length false, [seed]) ?_
  · obtain ⟨⟨visited, q⟩, r, ⟨h1, h2, h3, h4, h5⟩, hb, hl⟩ := key
    have hq : q = [] ∧ visited = r := by
      cases q with
      | nil => simp [dfsBody] at hb; exact ⟨rfl, hb⟩
      | cons v q =>
        exfalso
        simp only [dfsBody] at hb
        have hv := (h4 v (by simp))
        obtain ⟨k, hk⟩ := hv
        have hv := hk.lt hg hs
        simp only at h1
        obtain ⟨e1, e2⟩ := row_nbrs hv
        have hsome : ∃ vis', dfsMark visited v = .ok vis' ∧ vis'.length = g.length := by
          unfold dfsMark
          rw [vget_marked (by omega), res_bind_ok]
          split
          · exact ⟨visited, rfl, h1⟩
          · exact ⟨_, vset_of_lt (by omega), by simpa using h1⟩
        obtain ⟨vis', k1, k2⟩ := hsome
        rw [k1, res_bind_ok, e1, res_bind_ok, e2, dfs_edges vis' _ q (fun n hn => by rw [k2]; exact hg v n hn), res_bind_ok] at hb
        simp at hb
    obtain ⟨rfl, rfl⟩ := hq
    simp only [List.not_mem_nil, or_false] at h2 h5
    exact ⟨visited, hl, h1, fun v => ⟨h3 v, fun hv => marks_all h2 h5 hv⟩⟩
  · rintro ⟨visited, q⟩ ⟨h1, h2, h3, h4, h5⟩
    simp only at h1 h2 h3 h4 h5
    cases q with
    | nil => exact .inr ⟨visited, rfl⟩
    | cons v q =>
      refine .inl ?_
      have hreach := h4 v (by simp)
      have hv : v < g.length := by obtain ⟨k, hk⟩ := hreach; exact hk.lt hg hs
      obtain ⟨e1, e2⟩ := row_nbrs hv
      -- the marks after this round
      have hmk : ∃ vis', dfsMark visited v = .ok vis' ∧ vis'.length = g.length ∧
          (∀ w, Marked vis' w ↔ w = v ∨ Marked visited w) ∧ (Marked visited v → vis' = visited) ∧ (¬ Marked visited v → fresh vis' < fresh visited) := by
        unfold dfsMark
        rw [vget_marked (by omega), res_bind_ok]
        by_cases c : Marked visited v
        · refine ⟨visited, by simp [c], h1, ?_, fun _ => rfl, fun h => absurd c h⟩
          intro w
          constructor
          · exact .inr
          · rintro (rfl | h)
            · exact c
            · exact h
        · refine ⟨visited.set v true, ?_, by simpa using h1, fun w => marked_set (by omega), fun h => absurd h c, fun _ => ?_⟩
          · simp only [c, decide_false, Bool.false_eq_true, if_false]
            exact vset_of_lt (by omega)
          · have := fresh_set (show v < visited.length by omega) c
            omega
      obtain ⟨vis', k1, k2, k3, k4, k5⟩ := hmk
      refine ⟨(vis', ((nbrs g v).filter fun n => ¬ Marked vis' n).reverse ++ q), ?_, ⟨k2, ?_, ?_, ?_, ?_⟩, ?_⟩
      · simp only [dfsBody]
        rw [k1, res_bind_ok, e1, res_bind_ok, e2, dfs_edges vis' _ q (fun n hn => by rw [k2]; exact hg v n hn), res_bind_ok]
        rfl
      · rcases h2 with h | h
        · exact .inl ((k3 _).2 (.inr h))
        · rcases List.mem_cons.1 h with rfl | h
          · exact .inl ((k3 _).2 (.inl rfl))
          · exact .inr (by simp [h])
      · intro w hw
        rcases (k3 w).1 hw with rfl | h
        · exact hreach
        · exact h3 w h
      · intro w hw
        rcases List.mem_append.1 hw with h | h
        · rw [List.mem_reverse, List.mem_filter] at h
          obtain ⟨k, hk⟩ := hreach
          exact ⟨k + 1, .snoc hk h.1⟩
        · exact h4 w (by simp [h])
      · intro u w hu he
        by_cases cw : Marked vis' w
        · exact .inl cw
        · refine .inr ?_
          rw [List.mem_append, List.mem_reverse, List.mem_filter]
          rcases (k3 u).1 hu with rfl | h
          · exact .inl ⟨he, by simpa using cw⟩
          · rcases h5 u w h he with h' | h'
            · exact absurd ((k3 w).2 (.inr h')) cw
            · rcases List.mem_cons.1 h' with rfl | h'
              · exact absurd ((k3 w).2 (.inl rfl)) cw
              · exact .inr h'
      · by_cases c : Marked visited v
        · rw [k4 c]
          refine Prod.Lex.right _ ?_
          cases hf : ((nbrs g v).filter fun n => ¬ Marked visited n).reverse with
          | nil =>
            simp only [List.nil_append]
            have ha : again (visited, v :: q) = 1 := by simp [again, c]
            have hb : again (visited, q) ≤ 1 := by
              unfold again
              split
              · omega
              · split <;> omega
            rcases Nat.lt_or_ge (again (visited, q)) 1 with h | h
            · exact Prod.Lex.left _ _ (by rw [ha]; exact h)
            · have : again (visited, q) = again (visited, v :: q) := by omega
              rw [this]
              exact Prod.Lex.right _ (show q.length < (v :: q).length by simp)
          | cons n l =>
            refine Prod.Lex.left _ _ ?_
            have hn : n ∈ ((nbrs g v).filter fun n => ¬ Marked visited n).reverse := by rw [hf]; simp
            rw [List.mem_reverse, List.mem_filter] at hn
            have hn' : ¬ Marked visited n := by simpa using hn.2
            show again (visited, n :: l ++ q) < again (visited, v :: q)
            simp [again, c, hn']
        · exact Prod.Lex.left _ _ (k5 c)
  · refine ⟨by simp, .inr (by simp), fun v hv => absurd hv (not_marked_replicate _ _), ?_, fun u v hu _ => absurd hu (not_marked_replicate _ _)⟩
    intro v hv
    simp only [List.mem_singleton] at hv
    subst hv
    exact ⟨0, .nil⟩

/-- Both searches have one outcome. -/
theorem search_det {g : Rows α} {seed : Nat} {o o' : Res (List Bool)} : (Bfs g seed o → Bfs g seed o' → o = o') ∧ (Dfs g seed o → Dfs g seed o' → o = o') := by
  refine ⟨?_, fun h h' => Loop.det h h'⟩
  unfold Bfs
  split
  · intro h h'; rw [h, h']
  · exact fun h h' => Loop.det h h'

/-- A seed that is not a vertex makes both read or write out of bounds. -/
theorem search_bad_seed (g : Rows α) (seed : Nat) (hs : g.length ≤ seed) : Bfs g seed (.error .outOfBounds) ∧ Dfs g seed (.error .outOfBounds) := by
  constructor
  · unfold Bfs
    rw [vset_of_ge (by simpa using hs)]
  · refine .fault ?_
    simp only [dfsBody, dfsMark]
    rw [vget_of_ge (by simpa using hs), res_bind_error, res_bind_error]

/-- Non-vacuity: a graph with a cycle, a self loop and a vertex that cannot be reached. -/
example : let g : Rows Unit := [[(1, ()), (2, ())], [(2, ()), (0, ())], [(2, ())], [(0, ())]]
    InRange g ∧ Bfs g 0 (.ok [true, true, true, false]) ∧ Dfs g 0 (.ok [true, true, true, false]) := by
  refine ⟨by decide, ?_, ?_⟩
  · unfold Bfs
    exact Loop.of_runFuel (n := 5) (by decide)
  · exact Loop.of_runFuel (n := 8) (by decide)

end NW.Apb
