import Verif.Lemmas.MaxFlowSearch
import Mathlib.Tactic.NormNum

/-!
# C73: `max_flow`
-/

namespace NW.MaxFlow
open Spec BackEdge

variable {R : Type} [CommRing R] [LinearOrder R] [IsStrictOrderedRing R]

/-- The capacities and the flow of a graph. -/
def caps (g : Rows (R × R)) : Nat → Nat → R := arc g Prod.fst
def flow (g : Rows (R × R)) : Nat → Nat → R := arc g Prod.snd

/-- The result of a run with at most `k` augmentations, when the network was in state `g` at the beginning. -/
structure Outcome (g : Rows (R × R)) (source sink : Nat) (value : R) (g' : Rows (R × R)) (k : Nat) : Prop where
  edges : ∀ u v, Edge g' u v ↔ Edge g u v
  caps : ∀ u v, caps g' u v = caps g u v
  isFlow : IsFlow g.length (MaxFlow.caps g) source sink (flow g')
  total : excess g.length (flow g') source = excess g.length (flow g) source + value
  bound : value ≤ 100000 * k
  discrete : (∀ x : R, 0 < x → 1 ≤ x) → (k : R) ≤ value

omit [IsStrictOrderedRing R] in
theorem isFlow_of_feas {g : Rows (R × R)} {s : Net R} (h : Good g s) (hf : Feas s) {source sink : Nat}
    (hc : ∀ v, v < g.length → v ≠ source → v ≠ sink → excess g.length (F s) v = 0) : IsFlow g.length (caps g) source sink (flow s.g) :=
  ⟨fun u v _ _ => (hf u v).1, fun u v _ _ => by unfold caps; rw [← h.cap]; exact (hf u v).2, hc⟩

theorem rounds_ok {g : Rows (R × R)} (hg : InRange g) (hs : Simple g) {source sink : Nat} (hsrc : source < g.length) (hsink : sink < g.length) (hne : source ≠ sink)
    (hadj : ∃ u, Adj g source u) (n : Nat) : ∀ (s : Net R) (tree : List (Option TreeEdge)) (value : R) (k : Nat), Good g s → Feas s → tree.length = g.length →
    Outcome g source sink value s.g k → Run.Gives (rounds source sink n s tree value k) fun o => Outcome g source sink o.1 o.2.1.g o.2.2 ∧ o.2.2 ≤ k + n ∧
      (o.2.2 < k + n → IsMaxFlow g.length (caps g) source sink (flow o.2.1.g)) := by
  induction n with
  | zero =>
    intro s tree value k h hf ht ho
    exact Run.gives_pure ⟨ho, Nat.le_refl _, fun h => absurd h (Nat.lt_irrefl _)⟩
  | succ n ih =>
    intro s tree value k h hf ht ho
    unfold rounds
    obtain ⟨f, h1, hi⟩ := start_ok h hg hs hsrc hne hadj ht
    refine (Run.gives_lift (Q := fun o => o = (s, f)) h1 rfl).bind ?_
    rintro _ rfl
    refine (search_ok h hg hs hsrc hsink _ rfl hi).bind ?_
    rintro ⟨s1, f1, tree1⟩ ⟨e1, e2, D, c, hc, hd, hcase⟩
    dsimp only at e1 e2 hc hd
    subst e1
    refine (Run.gives_lift (Q := fun o => o = c) (vget_eq_ok.2 hc) rfl).bind ?_
    rintro _ rfl
    rcases hcase with ⟨rfl, hD⟩ | ⟨hcg, hD, hcl⟩
    · rw [if_neg (by simp)]
      obtain ⟨E, hp, hE⟩ := hd.path sink hD hne.symm
      refine (min_ok h hg hp 100000).bind ?_
      rintro m ⟨m1, m2, m3⟩
      have hm : 0 < m := by
        rcases m3 with m3 | ⟨e, he, m3⟩
        · rw [m3]; norm_num
        · rw [m3]; exact (hE e he).2.2
      refine (pushLoop_ok hg hs hp hm s1 h hf m2).bind ?_
      rintro s2 ⟨g1, g2, g3⟩
      have hsrc2 : excess g.length (F s2) source = excess g.length (F s1) source + m := by rw [g3, if_pos rfl, if_neg hne]; ring
      refine (ih s2 tree1 (value + m) (k + 1) g1 g2 e2 ⟨fun u v => g1.edge u v, g1.cap, isFlow_of_feas g1 g2 ?_, ?_, ?_, ?_⟩).mono ?_
      · intro v hv h1 h2
        have : excess g.length (F s1) v = 0 := ho.isFlow.conserved v hv h1 h2
        rw [g3, if_neg h1, if_neg h2, this]; ring
      · have : excess g.length (flow s2.g) source = excess g.length (flow s1.g) source + m := hsrc2
        rw [this, ho.total]; ring
      · have := ho.bound
        push_cast
        linarith
      · intro hdis
        have := ho.discrete hdis
        have := hdis m hm
        push_cast
        linarith
      · rintro o ⟨o1, o2, o3⟩
        exact ⟨o1, by omega, fun hlt => o3 (by omega)⟩
    · rw [if_pos hcg]
      refine Run.gives_pure ⟨ho, by simp, fun _ => ?_⟩
      refine isMaxFlow_of_cut ho.isFlow D.toFinset ?_ ?_ ?_ ?_
      · intro x hx
        exact Finset.mem_range.2 (hd.lt hg hsrc x (List.mem_toFinset.1 hx))
      · exact List.mem_toFinset.2 hd.source_mem
      · exact fun h' => hD (List.mem_toFinset.1 h')
      · intro u v hu _ hv
        have := fun h' => hv (List.mem_toFinset.2 (hcl u (List.mem_toFinset.1 hu) v h'))
        unfold r at this
        rw [h.cap] at this
        exact not_lt.1 this

omit [LinearOrder R] [IsStrictOrderedRing R] in
theorem good_build {g : Rows (R × R)} (hg : InRange g) : ∃ s, build zero g false = .ok s ∧ s.g = g ∧ Good g s := by
  obtain ⟨s, h1, h2, h3⟩ := build_ok (P := fun b => b = (zero : R × R)) rfl hg
  have e := h2.g_eq
  refine ⟨s, h1, e, ?_⟩
  exact ⟨by rw [e]; exact h2, by rw [e]; exact h3, by rw [e], fun v => by rw [e], fun v u => by unfold C; rw [e]⟩

omit [IsStrictOrderedRing R] in
theorem feas_of_isFlow {g : Rows (R × R)} (hg : InRange g) {source sink : Nat} (hf : IsFlow g.length (caps g) source sink (flow g)) (a b : Nat) : 0 ≤ flow g a b ∧ flow g a b ≤ caps g a b := by
  by_cases h : a < g.length ∧ b < g.length
  · exact ⟨hf.nonneg a b h.1 h.2, hf.le a b h.1 h.2⟩
  · have hn : ¬ Edge g a b := fun h' => h ⟨h'.src_lt, hg _ _ h'⟩
    unfold flow caps
    rw [arc_of_not_edge _ hn, arc_of_not_edge _ hn]
    exact ⟨le_refl _, le_refl _⟩

/-- C73 (partial: that the flow is maximal is missing if the number of iterations has been reached, and then it is false, see `max_flow_bounded` and `max_flow_not_max`).
On a network without loops and parallel arcs whose source has at least one arc, starting with any flow, `max_flow` neither faults nor runs forever.  It leaves arcs and capacities
alone; the arcs carry a flow again; its value is the value of the flow at the beginning plus the number returned.  If the search for an augmenting path has failed before the
iterations were used up, no flow has a larger value. -/
theorem max_flow_partial (g : Rows (R × R)) (hg : InRange g) (hs : Simple g) (source sink maxIters : Nat) (hsrc : source < g.length) (hsink : sink < g.length)
    (hne : source ≠ sink) (hadj : ∃ u, Edge g source u ∨ Edge g u source) (hflow : IsFlow g.length (caps g) source sink (flow g)) :
    ∃ s, build (0, 0) g false = .ok s ∧ Run.Gives (maxFlow s source sink maxIters) fun o => Outcome g source sink o.1 o.2.1.g o.2.2 ∧ o.2.2 ≤ maxIters + 1 ∧
      (o.2.2 ≤ maxIters → IsMaxFlow g.length (caps g) source sink (flow o.2.1.g)) := by
  obtain ⟨s, h1, h2, h3⟩ := good_build hg
  refine ⟨s, h1, ?_⟩
  have hf : Feas s := fun a b => by
    have := feas_of_isFlow hg hflow a b
    unfold F C; rw [h2]; exact this
  refine (rounds_ok hg hs hsrc hsink hne hadj (maxIters + 1) s (List.replicate s.g.length none) 0 0 h3 hf (by rw [List.length_replicate, h2]) ?_).mono ?_
  · rw [h2]
    exact ⟨fun _ _ => Iff.rfl, fun _ _ => rfl, hflow, by ring, by simp, fun _ => by simp⟩
  · rintro o ⟨o1, o2, o3⟩
    exact ⟨o1, by omega, fun h => o3 (by omega)⟩

/-- C73.  With integer capacities, no flow at the beginning, and at least as many iterations as the total capacity of the arcs from the source, the number returned is the value of
a maximum flow, which the arcs carry at the end. -/
theorem max_flow_int (g : Rows (ℤ × ℤ)) (hg : InRange g) (hs : Simple g) (source sink maxIters : Nat) (hsrc : source < g.length) (hsink : sink < g.length)
    (hne : source ≠ sink) (hadj : ∃ u, Edge g source u ∨ Edge g u source) (hcap : ∀ r ∈ g, ∀ e ∈ r, 0 ≤ e.2.1 ∧ e.2.2 = 0)
    (hiter : ∑ u ∈ Finset.range g.length, caps g source u ≤ maxIters) :
    ∃ s, build (0, 0) g false = .ok s ∧ Run.Gives (maxFlow s source sink maxIters) fun o => IsMaxFlow g.length (caps g) source sink (flow o.2.1.g) ∧
      excess g.length (flow o.2.1.g) source = o.1 := by
  have harc : ∀ a b, 0 ≤ caps g a b ∧ flow g a b = 0 := by
    intro a b
    unfold caps flow
    by_cases he : Edge g a b
    · obtain ⟨j, hj⟩ := (edge_iff_first g a b).1 he
      obtain ⟨e, e1, e2, -⟩ := first_some hj
      rw [arc_of_first _ hj e1, arc_of_first _ hj e1]
      refine hcap (g.getD a []) ?_ e (List.mem_of_getElem? e1)
      rw [List.getD_eq_getElem?_getD, List.getElem?_eq_getElem he.src_lt]
      exact List.getElem_mem _
    · rw [arc_of_not_edge _ he, arc_of_not_edge _ he]
      exact ⟨le_refl _, rfl⟩
  have hz : ∀ v, excess g.length (flow g) v = 0 := fun v => by
    unfold excess
    rw [Finset.sum_congr rfl fun u _ => (harc v u).2, Finset.sum_congr rfl fun u _ => (harc u v).2]
    simp
  have hflow : IsFlow g.length (caps g) source sink (flow g) :=
    ⟨fun u v _ _ => by rw [(harc u v).2], fun u v _ _ => by rw [(harc u v).2]; exact (harc u v).1, fun v _ _ _ => hz v⟩
  obtain ⟨s, h1, h2⟩ := max_flow_partial g hg hs source sink maxIters hsrc hsink hne hadj hflow
  refine ⟨s, h1, h2.mono ?_⟩
  rintro o ⟨o1, o2, o3⟩
  have hv := o1.total
  rw [hz, zero_add] at hv
  refine ⟨o3 ?_, hv⟩
  have hk := o1.discrete fun x hx => hx
  have := value_le_source o1.isFlow hsrc
  rw [hv] at this
  have : (o.2.2 : ℤ) ≤ maxIters := by linarith
  exact_mod_cast this

/-- C73.  The number returned is at most 100000 for every iteration. -/
theorem max_flow_bounded (g : Rows (R × R)) (hg : InRange g) (hs : Simple g) (source sink maxIters : Nat) (hsrc : source < g.length) (hsink : sink < g.length)
    (hne : source ≠ sink) (hadj : ∃ u, Edge g source u ∨ Edge g u source) (hflow : IsFlow g.length (caps g) source sink (flow g)) :
    ∃ s, build (0, 0) g false = .ok s ∧ Run.Gives (maxFlow s source sink maxIters) fun o => o.1 ≤ 100000 * (maxIters + 1) := by
  obtain ⟨s, h1, h2⟩ := max_flow_partial g hg hs source sink maxIters hsrc hsink hne hadj hflow
  refine ⟨s, h1, h2.mono ?_⟩
  rintro o ⟨o1, o2, -⟩
  have h3 : (o.2.2 : R) ≤ maxIters + 1 := by exact_mod_cast o2
  have := o1.bound
  linarith

/-- A single arc. -/
def single (c : ℤ) : Rows (ℤ × ℤ) := [[(1, (c, 0))], []]

/-- C73 (negative).  With any number of iterations there is a network of one arc for which the result is not the value of a maximum flow. -/
theorem max_flow_not_max (maxIters : Nat) :
    ∃ s, build (0, 0) (single (100000 * (maxIters + 1) + 1)) false = .ok s ∧ Run.Gives (maxFlow s 0 1 maxIters) fun o =>
      ¬ IsMaxFlow 2 (caps (single (100000 * (maxIters + 1) + 1))) 0 1 (flow o.2.1.g) := by
  have hc : ∀ (c : ℤ) u v, caps (single c) u v = if u = 0 ∧ v = 1 then c else 0 := by
    intro c u v
    unfold caps arc single
    match u with
    | 0 =>
      by_cases h : v = 1
      · subst h; simp
      · have h' : ¬ 1 = v := fun e => h e.symm
        simp [h, h']
    | 1 => simp
    | n + 2 => simp
  have hfl : ∀ (c : ℤ) u v, flow (single c) u v = 0 := by
    intro c u v
    unfold flow arc single
    match u with
    | 0 =>
      by_cases h : v = 1
      · subst h; simp
      · have h' : ¬ 1 = v := fun e => h e.symm
        simp [h']
    | 1 => simp
    | n + 2 => simp
  set c : ℤ := 100000 * (maxIters + 1) + 1 with hcdef
  have hc0 : 0 ≤ c := by positivity
  have hg : InRange (single c) := by
    rw [inRange_iff]
    intro r hr x hx
    simp only [single, List.mem_cons, List.not_mem_nil, or_false] at hr
    rcases hr with rfl | rfl
    · rw [List.mem_singleton] at hx; subst hx; simp [single]
    · cases hx
  have hs : Simple (single c) := by
    intro v
    match v with
    | 0 => simp [single, nbrs, Edge]
    | 1 => simp [single, nbrs, Edge]
    | n + 2 => simp [single, nbrs, Edge]
  have hz : excess (single c).length (flow (single c)) 0 = 0 := by
    unfold excess; simp [hfl]
  obtain ⟨s, h1, h2⟩ := max_flow_partial (single c) hg hs 0 1 maxIters (by simp [single]) (by simp [single]) (by simp) ⟨1, Or.inl (by simp [single, Edge, nbrs])⟩
    ⟨fun u v _ _ => by rw [hfl], fun u v _ _ => by rw [hfl, hc]; split <;> [exact hc0; exact le_refl _], fun v _ _ _ => by unfold excess; simp [hfl]⟩
  refine ⟨s, h1, h2.mono ?_⟩
  rintro o ⟨o1, o2, -⟩ hmax
  have hb := o1.bound
  have hv := o1.total
  rw [hz, zero_add] at hv
  have h3 : (o.2.2 : ℤ) ≤ maxIters + 1 := by exact_mod_cast o2
  have := hmax.2 (caps (single c)) ⟨fun u v _ _ => by rw [hc]; split <;> [exact hc0; exact le_refl _], fun _ _ _ _ => le_refl _, fun v hv h1 h2 => by omega⟩
  have e1 : excess 2 (caps (single c)) 0 = c := by
    unfold excess
    simp [Finset.sum_range_succ, hc]
  rw [e1] at this
  have e2 : excess 2 (flow o.2.1.g) 0 = o.1 := hv
  rw [e2] at this
  linarith

omit [IsStrictOrderedRing R] in
/-- C73 (negative).  If the source has no arc at all, `max_flow` reads an edge past the end. -/
theorem max_flow_isolated (g : Rows (R × R)) (hg : InRange g) (source sink maxIters : Nat) (hsrc : source < g.length)
    (hadj : ∀ u, ¬ Edge g source u ∧ ¬ Edge g u source) :
    ∃ s, build (0, 0) g false = .ok s ∧ Run.Faults (maxFlow s source sink maxIters) .outOfBounds := by
  obtain ⟨s, h1, h2, h3⟩ := good_build hg
  refine ⟨s, h1, ?_⟩
  unfold maxFlow rounds
  refine Run.Faults.bind (Run.faults_lift ?_)
  have hin : inner s source = .ok [] := by
    unfold inner
    rw [h2, vget_getD [] hsrc, res_bind_ok, vget_getD [] (by rw [h3.inv.len3, h2]; exact hsrc), res_bind_ok]
    have e1 : g.getD source [] = [] := by
      cases h : g.getD source [] with
      | nil => rfl
      | cons a l => exact absurd (show Edge g source a.1 by unfold Edge nbrs; rw [h]; simp) (hadj a.1).1
    have e2 : s.aextra.getD source [] = [] := by
      cases h : s.aextra.getD source [] with
      | nil => rfl
      | cons a l =>
        have := h3.inv.ax source a.1 a.2 (find_of_mem (h3.inv.sort3 source) (by rw [h]; simp))
        rw [h2] at this
        exact absurd this.1 (hadj a.1).2
    rw [e1, e2]; rfl
  unfold fbStart
  rw [vset_of_lt (by rw [List.length_replicate, h2]; exact hsrc), res_bind_ok, hin, res_bind_ok]
  rfl

/-- C73 (negative).  If the source is the sink, `max_flow` dereferences a null pointer. -/
theorem max_flow_same (g : Rows (R × R)) (hg : InRange g) (hs : Simple g) (source maxIters : Nat) (hsrc : source < g.length) (hadj : ∃ u, Edge g source u ∨ Edge g u source) :
    ∃ s, build (0, 0) g false = .ok s ∧ Run.Faults (maxFlow s source source maxIters) .uninitialised := by
  obtain ⟨s, h1, h2, h3⟩ := good_build hg
  refine ⟨s, h1, ?_⟩
  unfold maxFlow rounds
  have hstart : ∃ f, fbStart s source = .ok (s, f) ∧ f.col[source]? = some .grey := by
    unfold fbStart
    obtain ⟨ls, l1, l2, l3⟩ := inner_ok h3 hs hsrc
    have hls : ls ≠ [] := by
      obtain ⟨u, hu⟩ := hadj
      intro e
      have := l3 u hu
      rw [e] at this; cases this
    obtain ⟨pre, rest, e1, e2, -⟩ := skip0_ok h3 hg hs source ls hls l2
    rw [vset_of_lt (by rw [List.length_replicate, h2]; exact hsrc), res_bind_ok, l1, res_bind_ok, e2, res_bind_ok]
    exact ⟨_, rfl, List.getElem?_set_self (by rw [List.length_replicate, h2]; exact hsrc)⟩
  obtain ⟨f, hf1, hf2⟩ := hstart
  refine (Run.gives_lift (Q := fun o => o = (s, f)) hf1 rfl).bind_faults ?_
  rintro _ rfl
  refine (gives_loop_done (r := (s, f, List.replicate s.g.length none)) (Q := fun o => o = (s, f, List.replicate s.g.length none)) ?_ rfl).bind_faults ?_
  · unfold searchRound
    dsimp only
    rw [vget_eq_ok.2 hf2, res_bind_ok, if_pos (Or.inl rfl)]; rfl
  rintro _ rfl
  refine (Run.gives_lift (Q := fun o => o = Color.grey) (vget_eq_ok.2 hf2) rfl).bind_faults ?_
  rintro _ rfl
  rw [if_neg (by simp)]
  refine Run.Faults.bind ?_
  have : minRound s (List.replicate s.g.length none) source (source, false, 100000) = .error .uninitialised := by
    unfold minRound entry
    rw [if_neg (by simp), vget_eq_ok.2 (by rw [List.getElem?_replicate, if_pos (by rw [h2]; exact hsrc)])]
    rfl
  exact ⟨⟨_, Loop.fault this⟩, fun o ho => Loop.det ho (Loop.fault this)⟩

/-- A network in which a flow along the shortest path has to be taken back in part. -/
def sample : Rows (ℤ × ℤ) := [[(1, (1, 0)), (2, (1, 0))], [(3, (1, 0)), (4, (1, 0))], [(3, (1, 0))], [(5, (1, 0))], [(5, (1, 0))], []]

/-- The value of a loop that ends within the fuel; used only to exhibit concrete outcomes. -/
def evalLoop {σ ρ : Type} (fuel : Nat) (body : σ → Res (σ ⊕ ρ)) (s : σ) : Option ρ :=
  match runFuel body fuel s with
  | some (.ok r) => some r
  | _ => none

theorem evalLoop_gives {σ ρ : Type} {fuel : Nat} {body : σ → Res (σ ⊕ ρ)} {s : σ} {r : ρ} (h : evalLoop fuel body s = some r) : Run.Gives (Run.loop body s) (fun o => o = r) := by
  unfold evalLoop at h
  split at h
  · rename_i r' hr
    cases h
    exact ⟨⟨_, Loop.of_runFuel hr⟩, fun o ho => ⟨r, Loop.det ho (Loop.of_runFuel hr), rfl⟩⟩
  · cases h

/-- `rounds` with loops that end within the fuel. -/
def evalRounds (fuel source sink : Nat) : Nat → Net R → List (Option TreeEdge) → R → Nat → Option (R × Net R × Nat)
  | 0, s, _, maxflow, k => some (maxflow, s, k)
  | n + 1, s, tree, maxflow, k =>
    match fbStart s source with
    | .error _ => none
    | .ok (s, f) =>
      match evalLoop fuel (searchRound sink) (s, f, tree) with
      | none => none
      | some (s, f, tree) =>
        match vget f.col sink with
        | .error _ => none
        | .ok c =>
          if c ≠ .grey then some (maxflow, s, k)
          else
            match evalLoop fuel (minRound s tree source) (sink, false, 100000) with
            | none => none
            | some m =>
              match evalLoop fuel (pushRound tree source m) (sink, false, s) with
              | none => none
              | some s => evalRounds fuel source sink n s tree (maxflow + m) (k + 1)

omit [IsStrictOrderedRing R] in
theorem evalRounds_gives {fuel source sink : Nat} (n : Nat) : ∀ (s : Net R) (tree : List (Option TreeEdge)) (value : R) (k : Nat) (o : R × Net R × Nat),
    evalRounds fuel source sink n s tree value k = some o → Run.Gives (rounds source sink n s tree value k) (fun o' => o' = o) := by
  induction n with
  | zero => intro s tree value k o h; cases h; exact Run.gives_pure rfl
  | succ n ih =>
    intro s tree value k o h
    unfold evalRounds at h
    unfold rounds
    split at h
    · cases h
    · rename_i s1 f1 h1
      refine (Run.gives_lift (Q := fun o => o = (s1, f1)) h1 rfl).bind ?_
      rintro _ rfl
      split at h
      · cases h
      · rename_i s2 f2 t2 h2
        refine (evalLoop_gives h2).bind ?_
        rintro _ rfl
        dsimp only
        split at h
        · cases h
        · rename_i c h3
          refine (Run.gives_lift (Q := fun o => o = c) h3 rfl).bind ?_
          rintro _ rfl
          split at h
          · rename_i hc
            cases h
            rw [if_pos hc]
            exact Run.gives_pure rfl
          · rename_i hc
            rw [if_neg hc]
            split at h
            · cases h
            · rename_i m h4
              refine (evalLoop_gives h4).bind ?_
              rintro _ rfl
              split at h
              · cases h
              · rename_i s3 h5
                refine (evalLoop_gives h5).bind ?_
                rintro _ rfl
                exact ih _ _ _ _ _ h

/-- The capacity between two vertices if there are parallel arcs. -/
def totalCap (g : Rows (ℤ × ℤ)) (u v : Nat) : ℤ := (((g.getD u []).filter fun e => e.1 = v).map fun e => e.2.1).sum

/-- `sample` with an arc split in two parallel arcs of capacities 0 and 1. -/
def doubled : Rows (ℤ × ℤ) := [[(1, (1, 0)), (2, (1, 0))], [(3, (0, 0)), (3, (1, 0)), (4, (1, 0))], [(3, (1, 0))], [(5, (1, 0))], [(5, (1, 0))], []]

/-- C73 (negative).  With parallel arcs the flow is not always maximal: splitting an arc in two with the same total capacity changes the result. -/
theorem max_flow_parallel : (∀ u < 6, ∀ v < 6, totalCap doubled u v = totalCap sample u v) ∧
    (∃ s, build (0, 0) sample false = .ok s ∧ Run.Gives (maxFlow s 0 5 1000) fun o => o.1 = 2) ∧
    ∃ s, build (0, 0) doubled false = .ok s ∧ Run.Gives (maxFlow s 0 5 1000) fun o => o.1 = 1 := by
  refine ⟨by decide, ?_, ?_⟩
  · have key : ∃ s, build (0, 0) sample false = .ok s ∧ ((evalRounds 20 0 5 1001 s (List.replicate s.g.length none) 0 0).map fun o => o.1) = some 2 := ⟨_, rfl, by decide +kernel⟩
    obtain ⟨s, h1, h2⟩ := key
    refine ⟨s, h1, ?_⟩
    obtain ⟨o, h3, h4⟩ := Option.map_eq_some_iff.1 h2
    exact (evalRounds_gives _ _ _ _ _ _ h3).mono fun o' e => by rw [e]; exact h4
  · have key : ∃ s, build (0, 0) doubled false = .ok s ∧ ((evalRounds 20 0 5 1001 s (List.replicate s.g.length none) 0 0).map fun o => o.1) = some 1 := ⟨_, rfl, by decide +kernel⟩
    obtain ⟨s, h1, h2⟩ := key
    refine ⟨s, h1, ?_⟩
    obtain ⟨o, h3, h4⟩ := Option.map_eq_some_iff.1 h2
    exact (evalRounds_gives _ _ _ _ _ _ h3).mono fun o' e => by rw [e]; exact h4

example : ∃ s, build (0, 0) sample false = .ok s ∧ Run.Gives (maxFlow s 0 5 2) fun o => IsMaxFlow 6 (caps sample) 0 5 (flow o.2.1.g) ∧ excess 6 (flow o.2.1.g) 0 = o.1 :=
  max_flow_int sample (by decide) (by decide) 0 5 2 (by decide) (by decide) (by decide) ⟨1, Or.inl (by decide)⟩ (by decide) (by decide)

example : ∃ s, build (0, 0) sample false = .ok s ∧ Run.Gives (maxFlow s 0 5 1) fun o => o.1 ≤ 100000 * (1 + 1) := by
  have h := max_flow_bounded sample (by decide) (by decide) 0 5 1 (by decide) (by decide) (by decide) ⟨1, Or.inl (by decide)⟩
    ⟨fun u v hu hv => (by decide : ∀ u < 6, ∀ v < 6, 0 ≤ flow sample u v) u hu v hv, fun u v hu hv => (by decide : ∀ u < 6, ∀ v < 6, flow sample u v ≤ caps sample u v) u hu v hv, by decide⟩
  exact_mod_cast h

example : ∃ s, build (0, 0) ([[], [(2, ((3 : ℤ), 0))], []] : Rows (ℤ × ℤ)) false = .ok s ∧ Run.Faults (maxFlow s 0 2 5) .outOfBounds :=
  max_flow_isolated [[], [(2, (3, 0))], []] (by decide) 0 2 5 (by decide) (fun u => ⟨fun h => by simp [Edge, nbrs] at h, fun h => by
    match u with
    | 0 => simp [Edge, nbrs] at h
    | 1 => simp [Edge, nbrs] at h
    | 2 => simp [Edge, nbrs] at h
    | n + 3 => simp [Edge, nbrs] at h⟩)

example : ∃ s, build (0, 0) sample false = .ok s ∧ Run.Faults (maxFlow s 0 0 5) .uninitialised :=
  max_flow_same sample (by decide) (by decide) 0 5 (by decide) ⟨1, Or.inl (by decide)⟩

end NW.MaxFlow
