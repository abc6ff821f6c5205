import Verif.Model.JonesExp
import Verif.Props.DagMis

/-!
# C100: the experimental colouring

On every graph whose edges are stored in both directions (and without loops) the routine gives every vertex the colour 0: it is a colouring only if there are no edges.
-/

namespace NW.JonesExp
open Spec Ranges DagRange

variable {pred succ : List (List Nat)} {n : Nat}

/-- The counters of a vertex that is not coloured yet: only the first can be different from zero. -/
def Fresh (pc : List (List Nat)) (w : Nat) : Prop := ∀ i x, (pc.getD w [])[i + 1]? = some x → x = 0

/-- The sizes. -/
structure Shape (pred : List (List Nat)) (n : Nat) (s : List Nat × List (List Nat)) : Prop where
  colors : s.1.length = n
  pc : s.2.length = n
  row : ∀ w, w < n → (s.2.getD w []).length = indeg pred w

theorem bump_ok {pc : List (List Nat)} {u c : Nat} (hu : u < pc.length) (hc : c < (pc.getD u []).length) :
    ∃ pc', bump pc u c = .ok pc' ∧ pc'.length = pc.length ∧ (∀ w, (pc'.getD w []).length = (pc.getD w []).length) ∧
      (∀ w i, ¬ (w = u ∧ i = c) → (pc'.getD w [])[i]? = (pc.getD w [])[i]?) := by
  have hg : pc.getD u [] = pc[u] := by rw [List.getD_eq_getElem?_getD, List.getElem?_eq_getElem hu]; rfl
  rw [hg] at hc
  have hgd : ∀ w, (pc.set u (pc[u].set c (pc[u][c] + 1))).getD w [] = if w = u then pc[u].set c (pc[u][c] + 1) else pc.getD w [] := by
    intro w
    rw [List.getD_eq_getElem?_getD, List.getElem?_set]
    by_cases e : u = w
    · subst e; simp [hu]
    · rw [if_neg e, if_neg (fun h => e h.symm), List.getD_eq_getElem?_getD]
  refine ⟨pc.set u (pc[u].set c (pc[u][c] + 1)), ?_, by simp, ?_, ?_⟩
  · unfold bump
    rw [vget_of_lt hu, res_bind_ok, vget_of_lt hc, res_bind_ok, vset_of_lt hc, res_bind_ok, vset_of_lt hu]
  · intro w
    rw [hgd]
    split
    · rename_i e; subst e; rw [List.length_set, hg]
    · rfl
  · intro w i hwi
    rw [hgd]
    split
    · rename_i e
      subst e
      rw [hg, List.getElem?_set_ne (fun h => hwi ⟨rfl, h.symm⟩)]
    · rfl

/-- Raising counters of a list of vertices. -/
theorem bumps_ok {c : Nat} (ws : List Nat) {pc : List (List Nat)} (hpc : pc.length = n) (hr : ∀ w, w < n → (pc.getD w []).length = indeg pred w) (hp : pred.length = n) (hw : ∀ w ∈ ws, w < n) :
    ∃ pc', (ws.foldlM (fun pc w => do
        let pw ← vget pred w
        if c < pw.length then bump pc w c else return pc) pc) = .ok pc' ∧ pc'.length = n ∧ (∀ w, w < n → (pc'.getD w []).length = indeg pred w) ∧
      (c = 0 → ∀ w, Fresh pc w → Fresh pc' w) := by
  induction ws generalizing pc with
  | nil => exact ⟨pc, rfl, hpc, hr, fun _ _ h => h⟩
  | cons a ws ih =>
    have ha : a < n := hw a (by simp)
    have hi : (pred[a]'(by omega)).length = indeg pred a := by
      unfold indeg; rw [List.getD_eq_getElem?_getD, List.getElem?_eq_getElem (by omega)]; rfl
    rw [List.foldlM_cons, vget_of_lt (by omega : a < pred.length), res_bind_ok]
    by_cases hc : c < (pred[a]'(by omega)).length
    · rw [if_pos hc]
      obtain ⟨pc', h1, h2, h3, h4⟩ := bump_ok (pc := pc) (u := a) (c := c) (by omega) (by rw [hr a ha]; omega)
      rw [h1, res_bind_ok]
      obtain ⟨pc'', k1, k2, k3, k4⟩ := ih (pc := pc') (by omega) (fun w hw => by rw [h3, hr w hw]) (fun w hm => hw w (by simp [hm]))
      refine ⟨pc'', k1, k2, k3, fun h0 w hf => k4 h0 w fun i x hx => hf i x ?_⟩
      rw [h4 w (i + 1) (by omega)] at hx
      exact hx
    · rw [if_neg hc, res_pure, res_bind_ok]
      exact ih hpc hr fun w hm => hw w (by simp [hm])

theorem root_bumps_eq (ws : List Nat) {pc : List (List Nat)} (hp : pred.length = n) (hw : ∀ w ∈ ws, w < n ∧ 0 < indeg pred w) :
    ws.foldlM (fun pc u => bump pc u 0) pc = ws.foldlM (fun pc w => do
        let pw ← vget pred w
        if 0 < pw.length then bump pc w 0 else return pc) pc := by
  induction ws generalizing pc with
  | nil => rfl
  | cons a ws ih =>
    have ha := hw a (by simp)
    have hi : (pred[a]'(by omega)).length = indeg pred a := by
      unfold indeg; rw [List.getD_eq_getElem?_getD, List.getElem?_eq_getElem (by omega)]; rfl
    rw [List.foldlM_cons, List.foldlM_cons, vget_of_lt (by omega : a < pred.length), res_bind_ok, if_pos (by omega)]
    congr 1
    funext pc'
    exact ih fun w hm => hw w (by simp [hm])

theorem minColor_zero {d : Nat} {l : List Nat} (h : 0 ∈ l) : minColor d l = 0 := by
  induction l with
  | nil => cases h
  | cons x l ih =>
    unfold minColor
    split
    · assumption
    · rename_i hx
      exact ih ((List.mem_cons.1 h).resolve_left fun e => hx e.symm)

/-- The loop over the roots. -/
theorem roots_fold (hd : Dag pred succ) (hn : succ.length = n) {colors : List Nat} (hc : colors.length = n) :
    ∃ s, (List.range n).foldlM (rootStep pred succ) (colors, pred.map fun l => List.replicate l.length 0) = .ok s ∧ Shape pred n s ∧ (∀ w, Fresh s.2 w) ∧
      ∀ v, v < n → indeg pred v = 0 → s.1[v]? = some 0 := by
  have hp : pred.length = n := hd.1.trans hn
  have hg0 : ∀ w, (pred.map fun l => List.replicate l.length 0).getD w [] = List.replicate (indeg pred w) 0 := by
    intro w
    unfold indeg
    rw [List.getD_eq_getElem?_getD, List.getD_eq_getElem?_getD, List.getElem?_map]
    cases pred[w]? <;> rfl
  obtain ⟨s, h1, h2, h3, h4⟩ := foldlM_range_inv (n := n) (f := rootStep pred succ) (s := (colors, pred.map fun l => List.replicate l.length 0))
    (fun k s => Shape pred n s ∧ (∀ w, Fresh s.2 w) ∧ ∀ v, v < k → indeg pred v = 0 → s.1[v]? = some 0)
    ⟨⟨hc, by simpa using hp, fun w _ => by rw [hg0]; simp⟩, fun w i x hx => by
      rw [hg0, List.getElem?_replicate] at hx
      split at hx <;> simp_all, fun v hv => by omega⟩ (by
      rintro k hk s ⟨hs, hf, hz⟩
      unfold rootStep
      have hi : (pred[k]'(by omega)).length = indeg pred k := by
        unfold indeg; rw [List.getD_eq_getElem?_getD, List.getElem?_eq_getElem (by omega)]; rfl
      rw [vget_of_lt (by omega : k < pred.length), res_bind_ok]
      by_cases c : (pred[k]'(by omega)).length = 0
      · rw [if_pos c, vset_of_lt (by rw [hs.colors]; omega), res_bind_ok, vget_of_lt (by omega : k < succ.length), res_bind_ok]
        have hw : ∀ w ∈ succ[k]'(by omega), w < n ∧ 0 < indeg pred w := by
          intro w hw
          have ha : Arc succ k w := by
            unfold Arc; rw [List.getD_eq_getElem?_getD, List.getElem?_eq_getElem (by omega)]; exact hw
          refine ⟨by have := hd.2 k w ha; omega, ?_⟩
          have hcnt := hd.3 k w
          have : 0 < (pred.getD w []).count k := by rw [hcnt]; exact List.count_pos_iff.2 ha
          have := List.count_pos_iff.1 this
          unfold indeg
          exact List.length_pos_of_mem this
        rw [root_bumps_eq _ hp hw]
        obtain ⟨pc', k1, k2, k3, k4⟩ := bumps_ok (pred := pred) (n := n) (c := 0) (succ[k]'(by omega)) hs.pc hs.row hp fun w hm => (hw w hm).1
        rw [k1, res_bind_ok]
        refine ⟨_, rfl, ⟨by simpa using hs.colors, k2, k3⟩, fun w => k4 rfl w (hf w), fun v hv h0 => ?_⟩
        by_cases e : k = v
        · subst e; simp [hs.colors, hk]
        · simp only [List.getElem?_set_ne e]
          exact hz v (by omega) h0
      · rw [if_neg c]
        refine ⟨s, rfl, hs, hf, fun v hv h0 => ?_⟩
        by_cases e : k = v
        · subst e; omega
        · exact hz v (by omega) h0)
  exact ⟨s, h1, h2, h3, h4⟩

/-- The loop over the `dag_range`, when no vertex has exactly one entry in its list of predecessors: every vertex that becomes ready gets the colour 0. -/
theorem dag_fold (hd : Dag pred succ) (hn : succ.length = n) {srt : List Nat → List Nat} (hsrt : ∀ l, (srt l).Perm l) (L : List (Nat × Nat × Bool)) {s : List Nat × List (List Nat)} (hs : Shape pred n s)
    (hL : ∀ e ∈ L, e.2.1 < n ∧ 0 < indeg pred e.2.1) :
    ∃ s', L.foldlM (dagStep srt pred succ) s = .ok s' ∧ Shape pred n s' ∧
      ((∀ w, indeg pred w ≠ 1) → L.Pairwise (fun a b => a.2.2 = true → b.2.1 ≠ a.2.1) → (∀ e ∈ L, Fresh s.2 e.2.1) →
        ∀ v, (s.1[v]? = some 0 ∨ ∃ e ∈ L, e.2.1 = v ∧ e.2.2 = true) → s'.1[v]? = some 0) := by
  have hp : pred.length = n := hd.1.trans hn
  induction L generalizing s with
  | nil => exact ⟨s, rfl, hs, fun _ _ _ v hv => hv.resolve_right (by simp)⟩
  | cons e L ih =>
    obtain ⟨a, u, b⟩ := e
    have hL' : ∀ e ∈ L, e.2.1 < n ∧ 0 < indeg pred e.2.1 := fun e he => hL e (by simp [he])
    cases b with
    | false =>
      obtain ⟨s', h1, h2, h3⟩ := ih hs hL'
      refine ⟨s', by rw [List.foldlM_cons]; exact h1, h2, fun h4 h5 h6 v hv => ?_⟩
      rw [List.pairwise_cons] at h5
      refine h3 h4 h5.2 (fun e he => h6 e (by simp [he])) v ?_
      rcases hv with hv | ⟨e, he, hv⟩
      · exact Or.inl hv
      · rcases List.mem_cons.1 he with rfl | he
        · cases hv.2
        · exact Or.inr ⟨e, he, hv⟩
    | true =>
      have hu : u < n ∧ 0 < indeg pred u := hL (a, u, true) (by simp)
      have hrow : s.2.getD u [] = s.2[u]'(by rw [hs.pc]; omega) := by rw [List.getD_eq_getElem?_getD, List.getElem?_eq_getElem]; rfl
      have hi : (pred[u]'(by omega)).length = indeg pred u := by
        unfold indeg; rw [List.getD_eq_getElem?_getD, List.getElem?_eq_getElem (by omega)]; rfl
      have hsw : ∀ w ∈ succ[u]'(by omega), w < n := by
        intro w hw
        have ha : Arc succ u w := by
          unfold Arc; rw [List.getD_eq_getElem?_getD, List.getElem?_eq_getElem (by omega)]; exact hw
        have := hd.2 u w ha
        omega
      set r := s.2[u]'(by rw [hs.pc]; omega) with hr
      have hgd : ∀ w, (s.2.set u (srt r)).getD w [] = if w = u then srt r else s.2.getD w [] := by
        intro w
        rw [List.getD_eq_getElem?_getD, List.getElem?_set]
        by_cases e : u = w
        · subst e; simp [hs.pc, hu.1]
        · rw [if_neg e, if_neg (fun h => e h.symm), List.getD_eq_getElem?_getD]
      have hrl : (srt r).length = indeg pred u := by rw [(hsrt r).length_eq, ← hs.row u hu.1, hrow]
      obtain ⟨pc', k1, k2, k3, k4⟩ := bumps_ok (pred := pred) (n := n) (c := minColor (indeg pred u) (srt r)) (succ[u]'(by omega)) (pc := s.2.set u (srt r)) (by simpa using hs.pc) (fun w hw => by
        rw [hgd]
        split
        · rename_i e; subst e; exact hrl
        · exact hs.row w hw) hp hsw
      have hstep : dagStep srt pred succ s (a, u, true) = .ok (s.1.set u (minColor (indeg pred u) (srt r)), pc') := by
        unfold dagStep
        rw [if_pos rfl]
        simp only
        rw [vget_of_lt (by rw [hs.pc]; exact hu.1), res_bind_ok, vset_of_lt (by rw [hs.pc]; exact hu.1), res_bind_ok, vget_of_lt (by omega : u < pred.length), res_bind_ok,
          vset_of_lt (by rw [hs.colors]; exact hu.1), res_bind_ok, vget_of_lt (by omega : u < succ.length), res_bind_ok]
        rw [hi, ← hr, k1]
        rfl
      obtain ⟨s', h1, h2, h3⟩ := ih (s := (s.1.set u (minColor (indeg pred u) (srt r)), pc')) ⟨by simpa using hs.colors, k2, k3⟩ hL'
      refine ⟨s', by rw [List.foldlM_cons, hstep, res_bind_ok]; exact h1, h2, fun h4 h5 h6 v hv => ?_⟩
      rw [List.pairwise_cons] at h5
      have hzero : minColor (indeg pred u) (srt r) = 0 := by
        apply minColor_zero
        rw [(hsrt r).mem_iff]
        have hlen : r.length = indeg pred u := by rw [← hs.row u hu.1, hrow]
        have h2' : 1 < r.length := by have := h4 u; omega
        have := h6 (a, u, true) (by simp) 0 r[1] (by simp only; rw [hrow, List.getElem?_eq_getElem h2'])
        rw [← this]
        exact List.getElem_mem h2'
      refine h3 h4 h5.2 (fun e he => ?_) v ?_
      · refine k4 hzero _ fun i x hx => ?_
        rw [hgd, if_neg (h5.1 e he rfl)] at hx
        exact h6 e (by simp [he]) i x hx
      · by_cases hvu : u = v
        · subst hvu
          left
          simp [hs.colors, hu.1, hzero]
        · rcases hv with hv | ⟨e, he, hv⟩
          · left
            simpa [List.getElem?_set_ne hvu] using hv
          · rcases List.mem_cons.1 he with rfl | he
            · exact absurd hv.1 hvu
            · exact Or.inr ⟨e, he, hv⟩

/-- If every edge is stored in both directions, an edge contributes at least two entries to the list of predecessors. -/
theorem oriented_twice (g : Rows Unit) (hloop : ∀ u, ¬ Edge g u u) (hsym : ∀ u v, Edge g u v → Edge g v u) {u w : Nat} (h : (u, w) ∈ DagMis.oriented g) : 2 ≤ (DagMis.oriented g).count (u, w) := by
  obtain ⟨hj, hb⟩ := (DagMis.mem_oriented g hloop u w).1 h
  have hE : Edge g u w ∧ Edge g w u := by
    rcases hj with h | h
    · exact ⟨h, hsym _ _ h⟩
    · exact ⟨hsym _ _ h, h⟩
  have hne : u ≠ w := fun e => hloop u (by have := hE.1; rwa [← e] at this)
  have hanti : ¬ Before g w u := by unfold Before at *; omega
  have o1 : DagMis.orient g u w = (u, w) := by
    rcases DagMis.orient_cases g u w hne with h | h
    · exact h.1
    · exact absurd h.2 hanti
  have o2 : DagMis.orient g w u = (u, w) := by
    rcases DagMis.orient_cases g w u hne.symm with h | h
    · exact absurd h.2 hanti
    · exact h.1
  unfold DagMis.oriented
  rw [List.count, List.countP_map]
  have hsub : List.Subperm [(u, w, ()), (w, u, ())] (rowEdges (fun u => g.getD u []) 0 g.length) := by
    apply List.subperm_of_subset
    · simp [hne]
    · intro x hx
      rcases List.mem_cons.1 hx with rfl | hx
      · exact DagMis.rowEdges_of hE.1
      · rw [List.mem_singleton.1 hx]
        exact DagMis.rowEdges_of hE.2
  refine Nat.le_trans ?_ (hsub.countP_le _)
  simp [o1, o2]

/-- C100 (what holds).  Missing: that joined vertices get different colours (refuted below).  On a non-empty graph without loops the routine ends without a fault.
If every edge is stored in both directions, every vertex gets the colour 0. -/
theorem coloring2_partial (g : Rows Unit) (hne : g ≠ []) (hg : InRange g) (hloop : ∀ u, ¬ Edge g u u) (ready0 : Bool) (colors : List Nat) (hc : colors.length = g.length)
    {srt : List Nat → List Nat} (hsrt : ∀ l, (srt l).Perm l) :
    Run.Gives (coloring2 srt g ready0 colors) fun r => r.length = g.length ∧ ((∀ u v, Edge g u v → Edge g v u) → ∀ v, v < g.length → r[v]? = some 0) := by
  have hrow : ∀ u, 0 ≤ u → u < g.length → vget g u = .ok (g.getD u []) := by
    intro u _ hu
    rw [vget_of_lt hu, List.getD_eq_getElem?_getD, List.getElem?_eq_getElem hu]; rfl
  have hlen : 0 < g.length := by cases g with | nil => exact absurd rfl hne | cons => simp
  unfold coloring2
  refine (DagMis.gives_ok (plain_degree_range_visits (vget g) (fun u => g.getD u []) g.length fun u hu => hrow u (by omega) hu)).bind ?_
  rintro ds rfl
  obtain ⟨degrees, d1, d2⟩ := DagMis.degrees_ok g
  refine (Run.gives_lift (Q := (· = degrees)) d1 rfl).bind ?_
  rintro _ rfl
  rename_i degrees
  have hv := edge_range_enumerates (vget g) (fun u => g.getD u []) 0 g.length (by omega) hrow
  unfold EdgeRangeVisits at hv
  cases hp : edgeStart (vget g) 0 g.length with
  | error f => rw [hp] at hv; cases hv
  | ok p =>
  rw [hp] at hv
  refine (Run.gives_lift (Q := (· = p)) rfl rfl).bind ?_
  rintro _ rfl
  refine (DagMis.gives_ok hv).bind ?_
  rintro es rfl
  obtain ⟨s, s1, s2⟩ := foldlM_list_inv (l := rowEdges (fun u => g.getD u []) 0 g.length) (f := DagMis.addEdge degrees)
    (s := (List.replicate g.length [], List.replicate g.length []))
    (fun pre s => DagMis.Holds g.length (pre.map fun e => DagMis.orient g e.1 e.2.1) s)
    ⟨by simp, by simp, fun u w => by
      rw [List.getD_eq_getElem?_getD, List.getElem?_replicate]; split <;> simp, fun u w => by
      rw [List.getD_eq_getElem?_getD, List.getElem?_replicate]; split <;> simp⟩ (by
      rintro pre ⟨v, u, ⟨⟩⟩ post hl s hs
      have he : Edge g v u := DagMis.mem_rowEdges (e := (v, u, ())) (by rw [hl]; simp)
      obtain ⟨s', k1, k2⟩ := DagMis.addEdge_ok g d2 hs he.src_lt (hg _ _ he)
      exact ⟨s', k1, by rw [List.map_append]; exact k2⟩)
  refine (Run.gives_lift (Q := (· = s)) s1 rfl).bind ?_
  rintro _ rfl
  rename_i s
  change DagMis.Holds g.length (DagMis.oriented g) s at s2
  have hdag := DagMis.holds_dag g hg hloop s2
  obtain ⟨s', m1, m2, m3, m4⟩ := roots_fold (pred := s.1) hdag s2.len2 hc
  refine (Run.gives_lift (Q := (· = s')) m1 rfl).bind ?_
  rintro _ rfl
  rename_i s'
  obtain ⟨st, out, o1, o2, o3, -, o5⟩ := DagRange.dag_range_topological_partial hdag (by rw [s2.len2]; exact hlen) ready0
  rw [s2.len2] at o1
  refine (Run.gives_lift (Q := (· = st)) o1 rfl).bind ?_
  rintro _ rfl
  refine (DagMis.gives_ok o2).bind ?_
  rintro _ rfl
  rename_i out
  have harc : ∀ e ∈ out, Arc s.2 e.1 e.2.1 := by
    intro e he
    have : (e.1, e.2.1) ∈ arcs s.2 := o3.mem_iff.1 (List.mem_map.2 ⟨e, he, rfl⟩)
    unfold arcs at this
    obtain ⟨a, ha, h⟩ := List.mem_flatMap.1 this
    obtain ⟨b, hb, h⟩ := List.mem_map.1 h
    simp only [Prod.mk.injEq] at h
    rw [← h.1, ← h.2]
    exact hb
  obtain ⟨s'', q1, q2, q3⟩ := dag_fold hdag s2.len2 hsrt out m2 (by
    intro e he
    have ha := harc e he
    refine ⟨by have := hdag.2 _ _ ha; have := s2.len2; omega, ?_⟩
    have : 0 < (s.1.getD e.2.1 []).count e.1 := by rw [hdag.3]; exact List.count_pos_iff.2 ha
    exact List.length_pos_of_mem (List.count_pos_iff.1 this))
  refine (Run.gives_lift (Q := (· = s'')) q1 rfl).bind ?_
  rintro _ rfl
  rename_i s''
  refine Run.gives_pure ⟨q2.colors, fun hsym v hv => ?_⟩
  refine q3 ?_ ?_ (fun e _ => m3 _) v ?_
  · intro w h1
    unfold indeg at h1
    obtain ⟨u, hu⟩ := List.exists_mem_of_length_pos (l := s.1.getD w []) (by omega)
    have hcnt := s2.pred u w
    have hpos : 0 < (DagMis.oriented g).count (u, w) := by rw [← hcnt]; exact List.count_pos_iff.2 hu
    have := oriented_twice g hloop hsym (List.count_pos_iff.1 hpos)
    have hle := List.count_le_length (a := u) (l := s.1.getD w [])
    omega
  · rw [List.pairwise_iff_getElem]
    intro i j hi hj hij hr e
    have h1 : out[i]? = some (out[i].1, out[i].2.1, out[i].2.2) := List.getElem?_eq_getElem hi
    have h2 : out[j]? = some (out[j].1, out[i].2.1, out[j].2.2) := by rw [← e]; exact List.getElem?_eq_getElem hj
    exact (o5 i _ _ _ h1).1 hr j _ _ hij h2
  · by_cases h0 : indeg s.1 v = 0
    · exact Or.inl (m4 v hv h0)
    · right
      unfold indeg at h0
      obtain ⟨u, hu⟩ := List.exists_mem_of_length_pos (l := s.1.getD v []) (by omega)
      have ha : Arc s.2 u v := by
        unfold Arc
        rw [← List.count_pos_iff, ← hdag.3]
        exact List.count_pos_iff.2 hu
      have hmem : (u, v) ∈ arcs s.2 := by
        unfold arcs
        refine List.mem_flatMap.2 ⟨u, List.mem_range.2 ?_, List.mem_map.2 ⟨v, ha, rfl⟩⟩
        by_contra c
        unfold Arc at ha
        rw [List.getD_eq_getElem?_getD, List.getElem?_eq_none (by omega)] at ha
        cases ha
      obtain ⟨e, he, hev⟩ := List.mem_map.1 (o3.mem_iff.2 hmem)
      -- the last element with this target
      have hlast : ∃ i, ∃ h : i < out.length, out[i].2.1 = v ∧ ∀ j (h' : j < out.length), i < j → out[j].2.1 ≠ v := by
        have hne : (out.filter fun e => decide (e.2.1 = v)) ≠ [] := by
          intro hnil
          have := (List.filter_eq_nil_iff.1 hnil) e he
          simp only [Prod.mk.injEq] at hev
          simp [hev.2] at this
        obtain ⟨i0, hi0, hi0e⟩ := List.getElem_of_mem he
        have hex : ∃ i, i < out.length ∧ (out[i]?).map (fun e => e.2.1) = some v := ⟨i0, hi0, by
          simp only [Prod.mk.injEq] at hev
          rw [List.getElem?_eq_getElem hi0, hi0e, Option.map_some, hev.2]⟩
        let P := fun i : Nat => (out[i]?).map (fun e => e.2.1) = some v
        have hb : ∃ i, P i ∧ ∀ j, P j → j ≤ i := by
          obtain ⟨i, hi, hP⟩ := hex
          have hbd : ∀ j, P j → j ≤ out.length := by
            intro j hj
            by_contra c
            have : out[j]? = none := List.getElem?_eq_none (by omega)
            simp only [P, this] at hj
            cases hj
          have := Nat.findGreatest_spec (P := P) (n := out.length) (m := i) (by omega) hP
          exact ⟨_, this, fun j hj => Nat.le_findGreatest (hbd j hj) hj⟩
        obtain ⟨i, hi, hmax⟩ := hb
        have hil : i < out.length := by
          by_contra c
          have : out[i]? = none := List.getElem?_eq_none (by omega)
          simp only [P, this] at hi
          cases hi
        refine ⟨i, hil, ?_, fun j hj hij hjv => ?_⟩
        · simp only [P, List.getElem?_eq_getElem hil, Option.map_some, Option.some.injEq] at hi
          exact hi
        · have := hmax j (by simp only [P, List.getElem?_eq_getElem hj, Option.map_some, Option.some.injEq]; exact hjv)
          omega
      obtain ⟨i, hi, hiv, hmax⟩ := hlast
      refine ⟨out[i], List.getElem_mem hi, hiv, ?_⟩
      refine (o5 i _ _ _ (List.getElem?_eq_getElem hi)).2 fun j a' r' hij hj => ?_
      obtain ⟨hj1, hj2⟩ := List.getElem?_eq_some_iff.1 hj
      exact hmax j hj1 hij (by rw [hj2]; exact hiv)

/-- C100 is false: on a graph with an edge, stored in both directions, the ends of the edge get the same colour. -/
theorem coloring2_improper (g : Rows Unit) (hg : InRange g) (hloop : ∀ u, ¬ Edge g u u) (hsym : ∀ u v, Edge g u v → Edge g v u) (ready0 : Bool) (colors : List Nat) (hc : colors.length = g.length)
    {srt : List Nat → List Nat} (hsrt : ∀ l, (srt l).Perm l) {u v : Nat} (he : Edge g u v) : Run.Gives (coloring2 srt g ready0 colors) fun r => r[u]? = r[v]? := by
  have hne : g ≠ [] := fun h => by have := he.src_lt; rw [h] at this; simp at this
  refine (coloring2_partial g hne hg hloop ready0 colors hc hsrt).mono fun r hr => ?_
  rw [hr.2 hsym u he.src_lt, hr.2 hsym v (hg _ _ he)]

/-- A path of four vertices. -/
example : InRange DagMis.exPath ∧ (∀ u, ¬ Edge DagMis.exPath u u) ∧ (∀ u v, Edge DagMis.exPath u v → Edge DagMis.exPath v u) ∧ Edge DagMis.exPath 1 2 := by
  refine ⟨DagMis.exPath_inRange, DagMis.exPath_loopless, ?_, by decide⟩
  intro u v h
  have hu := h.src_lt
  have hv := DagMis.exPath_inRange _ _ h
  have : ∀ u < 4, ∀ v < 4, Edge DagMis.exPath u v → Edge DagMis.exPath v u := by decide
  exact this u hu v hv h

end NW.JonesExp
