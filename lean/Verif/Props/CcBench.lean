import Verif.Lemmas.CcBench
import Verif.Props.CcVerify
import Verif.Props.Cc
import Verif.Props.CcExp
import Verif.Props.SvExp
import Verif.Props.LpExp

/-!
# C111: the connected components benchmark

Stated for the components of the edge list that was read (`Spec/ComponentSizes`): `cc` reports their number and the sizes of the largest, whatever the options do to the graph on the way.
-/

namespace NW.CcBench
open Spec

/-- What is expected of the library: every increment of a degree takes place once, in some order; the sorts sort; the map is traversed once. -/
structure Lib.Conforms (L : Lib) : Prop where
  sched : IsSchedule L.sched
  byDegree : Csr.SortsByDegree L.byDegree
  sortEdges : IsSort (EdgeList.lexicalLt (fun _ _ => false) 0) L.sortEdges
  build : L.build.Ok
  order : ∀ l, (L.order l).Perm l
  sortCounts : IsSort (fun p q : Nat × Nat => decide (p.2 > q.2)) L.sortCounts

/-- An edge list as `load_graph` returns it, with ids that fit into 32 bits. -/
structure Loaded (el : EdgeList Unit) : Prop where
  wf : el.Wf
  below : EndpointsBelow el.numVertices el.contents
  fits : el.numVertices ≤ 2 ^ 32

/-- The report is right: the number of components, and the sizes of the five largest (of all, if there are not so many), the largest first. -/
structure Right (el : EdgeList Unit) (r : Report) : Prop where
  total : r.total = (components (Listed el.contents) el.numVertices).card
  k : r.k = min 5 r.total
  top : Largest 5 (componentSizes (Listed el.contents) el.numVertices) (r.top.map Prod.snd)

variable {L : Lib} {el : EdgeList Unit}

/-! ## print_top_n -/

theorem print_tally (hL : L.Conforms) (comp : List Nat) (n : Nat) :
    (printTopN L comp n).total = (tally comp).card ∧ (printTopN L comp n).k = min n (printTopN L comp n).total ∧ Largest n (tally comp) ((printTopN L comp n).top.map Prod.snd) := by
  have h1 : (counts comp).length = (tally comp).card := by
    rw [← counts_tally, Multiset.coe_card, List.length_map]
  have hp : (L.sortCounts (L.order (counts comp))).Perm (counts comp) := (hL.sortCounts.perm _).trans (hL.order _)
  have hs := hL.sortCounts.sorted (L.order (counts comp))
  refine ⟨h1, rfl, ((((L.sortCounts (L.order (counts comp))).drop (min n (counts comp).length)).map Prod.snd : List Nat) : Multiset Nat), ?_, ?_, ?_, ?_⟩
  · show _ = ((((L.sortCounts (L.order (counts comp))).take (min n (counts comp).length)).map Prod.snd : List Nat) : Multiset Nat) + _
    rw [Multiset.coe_add, ← List.map_append, List.take_append_drop, ← counts_tally]
    exact Multiset.coe_eq_coe.2 (hp.map Prod.snd).symm
  · show (((L.sortCounts (L.order (counts comp))).take (min n (counts comp).length)).map Prod.snd).length = _
    rw [List.length_map, List.length_take, hp.length_eq, ← h1]
    omega
  · show (((L.sortCounts (L.order (counts comp))).take (min n (counts comp).length)).map Prod.snd).Pairwise _
    rw [List.pairwise_map]
    refine (hs.sublist (List.take_sublist _ _)).imp fun {a b} h => ?_
    simpa using h
  · intro a ha b hb
    obtain ⟨p, hp', rfl⟩ := List.mem_map.1 ha
    obtain ⟨q, hq', rfl⟩ := List.mem_map.1 (Multiset.mem_coe.1 hb)
    rw [← List.take_append_drop (min n (counts comp).length) (L.sortCounts (L.order (counts comp)))] at hs
    have := (List.pairwise_append.1 hs).2.2 p hp' q hq'
    simpa using this

/-- C111, `print_top_n`: given labels that are equal exactly within the components, it prints their number, and the labels and sizes of the `n` largest, the largest first. -/
theorem print_top_n_correct (hL : L.Conforms) {R : Nat → Nat → Prop} {m : Nat} {comp : List Nat} (hc : ComponentLabels R m comp) (hl : comp.length = m) (n : Nat) :
    (printTopN L comp n).total = (components R m).card ∧ (printTopN L comp n).k = min n (components R m).card ∧
    Largest n (componentSizes R m) ((printTopN L comp n).top.map Prod.snd) ∧ ((printTopN L comp n).top.map Prod.fst).Nodup ∧
    ∀ p ∈ (printTopN L comp n).top, ∃ x < m, comp[x]? = some p.1 ∧ p.2 = (component R m x).card := by
  obtain ⟨h1, h2, h3⟩ := print_tally hL comp n
  have hcard : (tally comp).card = (components R m).card := by
    rw [← sizes_eq_tally hc hl]; unfold componentSizes; rw [Multiset.card_map]; rfl
  have hp : (L.sortCounts (L.order (counts comp))).Perm (counts comp) := (hL.sortCounts.perm _).trans (hL.order _)
  obtain ⟨c1, c2, c3⟩ := counts_spec comp
  refine ⟨h1.trans hcard, by rw [h2, h1, hcard], by rw [sizes_eq_tally hc hl]; exact h3, ?_, ?_⟩
  · exact ((hp.map Prod.fst).symm.nodup c1).sublist ((List.take_sublist _ _).map _)
  · intro p hp'
    have hpc : p ∈ counts comp := hp.mem_iff.1 (List.mem_of_mem_take hp')
    obtain ⟨x, hx⟩ := List.mem_iff_getElem?.1 ((c2 p.1).1 (List.mem_map_of_mem hpc))
    have hxm : x < m := by rw [← hl]; exact (List.getElem?_eq_some_iff.1 hx).1
    refine ⟨x, hxm, hx, ?_⟩
    rw [c3 p hpc, count_eq_card, hl]
    congr 1
    unfold component
    classical
    apply Finset.filter_congr
    intro y hy
    rw [← hc.2 x y hxm (Finset.mem_range.1 hy), hx]
    exact eq_comm

/-! ## The reader -/

theorem degrees_ok (hL : L.Conforms) (he : Loaded el) (directed : Bool) : ∃ degree, el.degrees L.sched directed 0 = .ok degree := by
  cases directed with
  | true => exact ⟨_, Csr.degrees_directed_all_schedules L.sched hL.sched el he.wf he.below 0⟩
  | false => exact ⟨_, Csr.degrees_undirected_all_schedules L.sched hL.sched el he.wf he.below 0⟩

/-- C111, the graphs that are searched.  They have one row per vertex of the edge list.  For a symmetric file, the first is symmetric and the second empty; otherwise the second is the transpose of the first.
Up to a renaming of the vertices, which is the identity without `--relabel`, the components are those of the edge list. -/
theorem reader_correct (hL : L.Conforms) (he : Loaded el) (o : Opts) (symmetric : Bool) :
    ∃ (g t : Rows Unit) (newId : List Nat), reader L o symmetric el = .ok (g, t) ∧ g.length = el.numVertices ∧ InRange g ∧
      (if symmetric then t = [] ∧ ∀ u v, Edge g u v → Edge g v u else IsTranspose g t) ∧ newId.Perm (List.range el.numVertices) ∧
      (o.relabel = false → newId = List.range el.numVertices) ∧
      ∀ u < el.numVertices, ∀ v < el.numVertices, Conn (Edge g) (newId.getD u 0) (newId.getD v 0) ↔ Conn (Listed el.contents) u v := by
  obtain ⟨degree, h1⟩ := degrees_ok hL he (!symmetric)
  -- the renaming
  obtain ⟨el', newId, hel, hw', hp, hv, hc, hid⟩ : ∃ (el' : EdgeList Unit) (newId : List Nat),
      renamed L o (!symmetric) degree el = .ok el' ∧ el'.Wf ∧ newId.Perm (List.range el.numVertices) ∧ el'.numVertices = el.numVertices ∧
      el'.contents = el.contents.map (EdgeList.renameEdge fun v => newId.getD v 0) ∧ (o.relabel = false → newId = List.range el.numVertices) := by
    unfold renamed
    split
    case isFalse h =>
      refine ⟨el, List.range el.numVertices, rfl, he.wf, List.Perm.refl _, rfl, ?_, fun _ => rfl⟩
      conv => lhs; rw [← List.map_id el.contents]
      refine List.map_congr_left fun x hx => ?_
      have := he.below x hx
      simp only [EdgeList.renameEdge, List.getD_eq_getElem?_getD, List.getElem?_range this.1, List.getElem?_range this.2, Option.getD_some, id]
    case isTrue h =>
      obtain ⟨el', newId, e1, e2, e3, e4, -, -⟩ := EdgeList.relabel_by_degree_correct L.sched hL.sched L.byDegree hL.byDegree (!symmetric) 0 o.direction el he.wf he.below
      have hrel : el.relabelByDegree L.sched L.byDegree (!symmetric) 0 o.direction degree = .ok (el', newId) := by
        rw [← e1]
        unfold EdgeList.relabelByDegree
        simp only [List.length_nil, if_true, h1]
        split <;> rfl
      refine ⟨el', newId, by rw [hrel]; rfl, ?_, e2, e3, e4, fun k => by rw [h] at k; cases k⟩
      exact relabel_wf hrel
  have hlen : newId.length = el.numVertices := by simpa using hp.length_eq
  have hget : ∀ a (ha : a < el.numVertices), newId.getD a 0 = newId[a]'(by omega) := fun a ha => by
    rw [List.getD_eq_getElem?_getD, List.getElem?_eq_getElem (by omega)]; rfl
  have hlt : ∀ a < el.numVertices, newId.getD a 0 < el.numVertices := fun a ha => by
    rw [hget a ha]; exact List.mem_range.1 (hp.mem_iff.1 (List.getElem_mem _))
  have hb' : EndpointsBelow el'.numVertices el'.contents := by
    rw [hv, hc]
    intro x hx
    obtain ⟨y, hy, rfl⟩ := List.mem_map.1 hx
    exact ⟨hlt _ (he.below y hy).1, hlt _ (he.below y hy).2⟩
  obtain ⟨k1, k2, k3⟩ := joined_cleaned L hL.sortEdges o el' hw'
  have hb2 : EndpointsBelow (cleaned L o el').numVertices (cleaned L o el').contents := cleaned_below L hL.sortEdges o el' hw' hb'
  obtain ⟨g, g1, g2, g3⟩ := adjacency_ok L hL.build (!symmetric) 0 (by decide) (cleaned L o el') k2 hb2
  obtain ⟨t, t1, t2⟩ : ∃ t, second L symmetric (cleaned L o el') = .ok t ∧ (if symmetric then t = [] ∧ ∀ u v, Edge g u v → Edge g v u else IsTranspose g t) := by
    cases symmetric with
    | true =>
      refine ⟨[], rfl, ?_⟩
      simp only [if_true, true_and]
      intro u v h
      have := (g3 u v).1 h
      simp at this
      exact (g3 v u).2 (by simpa using this.symm)
    | false =>
      obtain ⟨t, t1, t2, t3⟩ := adjacency_ok L hL.build true 1 (by decide) (cleaned L o el') k2 hb2
      refine ⟨t, t1, ?_⟩
      simp only [Bool.false_eq_true, if_false]
      refine ⟨by rw [t2, g2], fun u v => ?_⟩
      rw [t3, g3]
      simp
  have hconn : ∀ x y, Conn (Edge g) x y ↔ Conn (JoinedBy el'.contents) x y := by
    intro x y
    have : Conn (Edge g) x y ↔ Conn (Listed (cleaned L o el').contents) x y := by
      constructor
      · intro h
        refine h.lift fun a b hab => ?_
        have := (g3 a b).1 hab
        cases symmetric with
        | true =>
          simp at this
          rcases this with k | k
          · exact .of k
          · exact (Conn.of k).symm
        | false => simp at this; exact .of this
      · intro h
        refine h.lift fun a b hab => .of ((g3 a b).2 ?_)
        cases symmetric <;> simp [hab]
    rw [this, conn_joined]
    exact ⟨fun h => h.lift fun a b hab => .of ((k3 a b).1 hab), fun h => h.lift fun a b hab => .of ((k3 a b).2 hab)⟩
  refine ⟨g, t, newId, ?_, by rw [g2, k1, hv], ?_, t2, hp, hid, ?_⟩
  · unfold reader
    rw [h1, res_bind_ok, hel, res_bind_ok, g1, res_bind_ok, t1, res_bind_ok]
    rfl
  · intro u v h
    rw [g2]
    have := (g3 u v).1 h
    cases symmetric with
    | true =>
      simp at this
      rcases this with ⟨a, k⟩ | ⟨a, k⟩
      · exact (hb2 _ k).2
      · exact (hb2 _ k).1
    | false =>
      simp at this
      obtain ⟨a, k⟩ := this
      exact (hb2 _ k).2
  · intro u hu v hv'
    rw [hconn, ← conn_joined, hc]
    exact conn_rename he.below hp hu hv'

/-! ## The benchmark -/

theorem gives_runs {σ ρ : Type} {step : σ → Res (σ ⊕ ρ) → Prop} {Q : ρ → Prop} {s : σ} (h : Sure step Q s) : Run.Gives (fun o => Runs step s o) Q :=
  ⟨h.exists_run.elim fun r hr => ⟨_, hr.1⟩, fun _ ho => h.outcome ho⟩

/-- Labels that are right for the graph that is searched describe the components of the edge list. -/
theorem tally_renamed {g : Rows Unit} {newId comp : List Nat} {R : Nat → Nat → Prop} {n : Nat} (hg : g.length = n) (hp : newId.Perm (List.range n))
    (hconn : ∀ u < n, ∀ v < n, Conn (Edge g) (newId.getD u 0) (newId.getD v 0) ↔ Conn R u v) (hl : comp.length = n) (hc : ComponentLabels (Edge g) g.length comp) :
    componentSizes R n = tally comp := by
  have hlen : newId.length = n := by simpa using hp.length_eq
  have hget : ∀ u < n, ∃ i, newId.getD u 0 = i ∧ newId[u]? = some i ∧ i < n := fun u hu => by
    refine ⟨newId[u]'(by omega), by rw [List.getD_eq_getElem?_getD, List.getElem?_eq_getElem (by omega)]; rfl, List.getElem?_eq_getElem _, ?_⟩
    exact List.mem_range.1 (hp.mem_iff.1 (List.getElem_mem _))
  have hcl : ComponentLabels R n (newId.map fun i => comp.getD i 0) := by
    refine ⟨by simp [hlen], fun x y hx hy => ?_⟩
    obtain ⟨i, i1, i2, i3⟩ := hget x hx
    obtain ⟨j, j1, j2, j3⟩ := hget y hy
    rw [← hconn x hx y hy, i1, j1, ← hc.2 i j (by omega) (by omega), List.getElem?_map, List.getElem?_map, i2, j2]
    simp only [Option.map_some, List.getD_eq_getElem?_getD, List.getElem?_eq_getElem (by omega : i < comp.length), List.getElem?_eq_getElem (by omega : j < comp.length), Option.getD_some]
  rw [sizes_eq_tally hcl (by simp [hlen])]
  refine tally_perm ((hp.map _).trans ?_)
  have : (List.range n).map (fun i => comp.getD i 0) = comp := by
    apply List.ext_getElem
    · simp [hl]
    · intro i h1 h2
      simp only [List.getElem_map, List.getElem_range, List.getD_eq_getElem?_getD, List.getElem?_eq_getElem h2, Option.getD_some]
  rw [this]

theorem right_of_tally (hL : L.Conforms) {comp : List Nat} (h : componentSizes (Listed el.contents) el.numVertices = tally comp) : Right el (printTopN L comp) := by
  obtain ⟨h1, h2, h3⟩ := print_tally hL comp 5
  refine ⟨?_, h2, by rw [h]; exact h3⟩
  rw [h1, ← h]
  unfold componentSizes
  rw [Multiset.card_map]
  rfl

/-- The versions that label the components of what the file contains. -/
def Sound (symmetric : Bool) (threads id : Nat) : Prop :=
  id ∈ [1, 2, 6, 8, 9] ∨ (symmetric = true ∧ (id = 5 ∨ (0 < threads ∧ (id = 10 ∨ id = 11))))

theorem labels_ok {symmetric : Bool} {id threads : Nat} (hid : Sound symmetric threads id) {g t : Rows Unit} (hg : InRange g) (hB : g.length ≤ 2 ^ 32)
    (hs : symmetric = true → ∀ u v, Edge g u v → Edge g v u) :
    Run.Gives (labels id threads g t) (fun comp => comp.length = g.length ∧ ComponentLabels (Edge g) g.length comp) := by
  have weaken : ∀ comp : List Nat, (comp.length = g.length ∧ LeastLabels (Edge g) g.length comp ∧ ComponentLabels (Edge g) g.length comp) →
      comp.length = g.length ∧ ComponentLabels (Edge g) g.length comp := fun _ h => ⟨h.1, h.2.2⟩
  rcases hid with h | ⟨h, rfl | ⟨h0, rfl | rfl⟩⟩
  · simp only [List.mem_cons, List.not_mem_nil, or_false] at h
    rcases h with rfl | rfl | rfl | rfl | rfl
    · exact (gives_runs (CcExp.ccv1_correct g _ hg hB)).mono weaken
    · exact (gives_runs (CcExp.ccv2_correct g _ hg hB)).mono weaken
    · exact (gives_runs (SvExp.sv_vertex_correct g _ hg hB)).mono weaken
    · exact (gives_runs (SvExp.sv_vertex_correct g _ hg hB)).mono weaken
    · exact (gives_runs (SvExp.sv_edge_correct g _ hg hB)).mono weaken
  · exact (gives_runs (CcExp.ccv5_partial g _ hg hB (hs h))).mono weaken
  · exact (gives_runs (LpExp.lpcc_symmetric_partial .plain g _ _ hg (hs h) h0 (Nat.le_refl _))).mono weaken
  · exact (gives_runs (LpExp.lpcc_symmetric_partial .cyclic g _ _ hg (hs h) h0 (Nat.le_refl _))).mono weaken

/-- C111, the part that holds.  With versions 1, 2, 6, 8 and 9 on every file, and 5, 10 and 11 on symmetric ones, whatever the options, the number of threads and the schedule, the benchmark ends and
reports the number of components of the edge list that was read and the sizes of the largest.  Nevertheless, `--verify` always complains.
Missing: versions 0 and 7 (`afforest_out_of_bounds`, `afforest_counts_one_too_many`), versions 10 and 11 on files that are not symmetric (`lpcc_splits_component`), and a verifier that accepts. -/
theorem bench_correct_partial (hL : L.Conforms) (he : Loaded el) (o : Opts) (symmetric : Bool) (id threads : Nat) (hid : Sound symmetric threads id) :
    Run.Gives (bench L o symmetric id threads el) (fun r => Right el r.1 ∧ r.2 = false) := by
  obtain ⟨g, t, newId, h1, h2, h3, h4, h5, -, h7⟩ := reader_correct hL he o symmetric
  unfold bench
  refine (Run.gives_lift (Q := fun p => p = (g, t)) h1 rfl).bind fun p hp => ?_
  subst hp
  refine (labels_ok hid h3 (by rw [h2]; exact he.fits) fun hs => by rw [hs, if_pos rfl] at h4; exact h4.2).bind fun comp ⟨c1, c2⟩ => ?_
  have hin : CcVerify.Input g t comp := by
    refine ⟨h3, by omega, ?_⟩
    cases symmetric with
    | true => rw [if_pos rfl] at h4; exact Or.inl h4
    | false => simp only [Bool.false_eq_true, if_false] at h4; exact Or.inr h4
  obtain ⟨v1, v2⟩ := CcVerify.ccVerifier_always_false g t comp hin
  have hv : Run.Gives (verdict g t comp) (fun b => b = false) := ⟨⟨_, v1⟩, fun o ho => ⟨false, v2 o ho, rfl⟩⟩
  refine hv.bind fun b hb => Run.gives_pure ⟨right_of_tally hL (tally_renamed h2 h5 h7 (by omega) c2), hb⟩

/-- C111, versions 0 and 7: every run reads out of bounds. -/
theorem afforest_out_of_bounds (hL : L.Conforms) (he : Loaded el) (o : Opts) (symmetric : Bool) (id threads : Nat) (hid : id = 0 ∨ id = 7) :
    Run.Faults (bench L o symmetric id threads el) .outOfBounds := by
  obtain ⟨g, t, -, h1, -⟩ := reader_correct hL he o symmetric
  unfold bench
  refine (Run.gives_lift (Q := fun p => p = (g, t)) h1 rfl).bind_faults fun p hp => ?_
  subst hp
  obtain ⟨f1, f2⟩ := Cc.afforest_outOfBounds g t (2 ^ 32) 2 (by decide)
  have : Run.Faults (labels id threads g t) .outOfBounds := by
    rcases hid with rfl | rfl <;> exact ⟨⟨_, f2⟩, fun o ho => f1 o ho⟩
  exact this.bind

/-- C111, versions 0 and 7: where the rows one past the end, which do not exist, happen to be empty, they report one component too many, of one vertex, which is not in the graph. -/
theorem afforest_counts_one_too_many (hL : L.Conforms) (he : Loaded el) (hfit : el.numVertices < 2 ^ 32) (o : Opts) (symmetric : Bool) :
    ∃ g t, reader L o symmetric el = .ok (g, t) ∧
      Sure (Cc.AStep (2 ^ 32) (g ++ [[]]) (if symmetric then [] else t ++ [[]]) 2)
        (fun comp => (printTopN L comp).total = (components (Listed el.contents) el.numVertices).card + 1 ∧
          Largest 5 (1 ::ₘ componentSizes (Listed el.contents) el.numVertices) ((printTopN L comp).top.map Prod.snd)) (Cc.start g.length 2) := by
  obtain ⟨g, t, newId, h1, h2, h3, h4, h5, -, h7⟩ := reader_correct hL he o symmetric
  refine ⟨g, t, h1, (Cc.afforest_partial g t _ (2 ^ 32) 2 h3 (by omega) ?_).mono fun comp ⟨c1, c2, c3, c4⟩ => ?_⟩
  · cases symmetric with
    | true => rw [if_pos rfl] at h4; exact Or.inl ⟨rfl, h4.2⟩
    | false => simp only [Bool.false_eq_true, if_false] at h4; exact Or.inr ⟨rfl, h4⟩
  · have hsplit : comp = comp.take g.length ++ [g.length] := by
      have h := List.take_append_drop g.length comp
      have hd : comp.drop g.length = [g.length] := by
        obtain ⟨k, hk⟩ := List.getElem?_eq_some_iff.1 c2
        rw [List.drop_eq_getElem_cons k, hk, List.drop_eq_nil_of_le (by omega)]
      rw [hd] at h
      exact h.symm
    have hget : ∀ x, x < g.length → (comp.take g.length)[x]? = comp[x]? := fun x hx => by rw [List.getElem?_take, if_pos hx]
    have hlen : (comp.take g.length).length = g.length := by rw [List.length_take]; omega
    have hnot : g.length ∉ comp.take g.length := by
      intro hm
      obtain ⟨x, hx⟩ := List.mem_iff_getElem?.1 hm
      have hxl : x < g.length := by
        have := (List.getElem?_eq_some_iff.1 hx).1
        omega
      rw [hget x hxl] at hx
      obtain ⟨l, k1, -, k3⟩ := c3 x hxl
      rw [hx] at k1
      cases k1
      have := k3 x (.refl _)
      omega
    have hcl : ComponentLabels (Edge g) g.length (comp.take g.length) := ⟨by omega, fun x y hx hy => by rw [hget x hx, hget y hy]; exact c4.2 x y hx hy⟩
    have hsz := tally_renamed h2 h5 h7 (by omega) hcl
    have ht : tally comp = 1 ::ₘ tally (comp.take g.length) := by
      rw [hsplit]
      have hp : (comp.take g.length ++ [g.length]).Perm (g.length :: comp.take g.length) := List.perm_append_comm
      rw [tally_perm hp]
      simp only [List.take_append_of_le_length (by omega : g.length ≤ (comp.take g.length).length), List.take_take, Nat.min_self]
      unfold tally
      rw [List.dedup_cons_of_notMem hnot, ← Multiset.cons_coe, Multiset.map_cons, List.count_cons_self, List.count_eq_zero_of_not_mem hnot]
      congr 1
      refine Multiset.map_congr rfl fun l hl => ?_
      rw [List.count_cons_of_ne]
      rintro rfl
      exact hnot (List.mem_dedup.1 (Multiset.mem_coe.1 hl))
    obtain ⟨p1, p2, p3⟩ := print_tally hL comp 5
    rw [ht, ← hsz] at p1 p3
    refine ⟨?_, p3⟩
    rw [p1, Multiset.card_cons]
    congr 1
    unfold componentSizes
    rw [Multiset.card_map]
    rfl

/-- The edge list with the one edge 1→0. -/
def exBack : EdgeList Unit := ⟨2, false, [1], [0], [()]⟩

/-- C111, versions 10 and 11 on a file that is not symmetric: of the one component of the edge 1→0 they always report two. -/
theorem lpcc_splits_component (hL : L.Conforms) (o : Opts) (ho : o.relabel = false ∧ o.clean = false) (id threads : Nat) (hid : id = 10 ∨ id = 11) (h0 : 0 < threads) :
    (components (Listed exBack.contents) exBack.numVertices).card = 1 ∧ Run.Gives (bench L o false id threads exBack) (fun r => r.1.total = 2) := by
  have hw : exBack.Wf := ⟨rfl, rfl⟩
  have hb : EndpointsBelow exBack.numVertices exBack.contents := by simp [EndpointsBelow, exBack, EdgeList.contents, EdgeList.numVertices]
  have hlist : ∀ u v, Listed exBack.contents u v ↔ u = 1 ∧ v = 0 := by
    intro u v
    simp [Listed, exBack, EdgeList.contents]
  constructor
  · have hc : ComponentLabels (Listed exBack.contents) 2 [0, 0] := by
      refine ⟨Nat.le_refl _, fun x y hx hy => ?_⟩
      have h10 : Conn (Listed exBack.contents) 1 0 := .of ((hlist 1 0).2 ⟨rfl, rfl⟩)
      have h : x = 0 ∨ x = 1 := by omega
      have h' : y = 0 ∨ y = 1 := by omega
      rcases h with rfl | rfl <;> rcases h' with rfl | rfl <;> refine ⟨fun _ => ?_, fun _ => rfl⟩
      · exact .refl _
      · exact h10.symm
      · exact h10
      · exact .refl _
    have := sizes_eq_tally hc rfl
    have hcard := congrArg Multiset.card this
    unfold componentSizes at hcard
    rw [Multiset.card_map] at hcard
    exact hcard
  · obtain ⟨degree, h1⟩ := degrees_ok hL (el := exBack) ⟨hw, hb, by decide⟩ true
    obtain ⟨g, g1, g2, g3⟩ := adjacency_ok L hL.build true 0 (by decide) exBack hw hb
    obtain ⟨t, t1, t2, t3⟩ := adjacency_ok L hL.build true 1 (by decide) exBack hw hb
    have g2 : g.length = 2 := g2
    have hedge : ∀ u v, Edge g u v ↔ u = 1 ∧ v = 0 := fun u v => by rw [g3]; simp [hlist]
    have hr : reader L o false exBack = .ok (g, t) := by
      unfold reader renamed cleaned second
      simp only [Bool.not_false, ho.1, ho.2, Bool.false_eq_true, if_false]
      rw [h1, res_bind_ok, res_bind_ok, g1, res_bind_ok, t1, res_bind_ok]
      rfl
    have hg : InRange g := fun u v h => by rw [g2, ((hedge u v).1 h).2]; decide
    have hcomp : ∀ comp, LpExp.LeastSource g comp → comp = [0, 1] := by
      rintro comp ⟨c1, c2⟩
      obtain ⟨l, l1, -, l3⟩ := c2 0 (by omega)
      obtain ⟨m, m1, m2, -⟩ := c2 1 (by omega)
      have hl : l = 0 := by have := l3 0 ⟨0, .nil⟩; omega
      have hm : m = 1 := by
        obtain ⟨k, hk⟩ := m2
        cases hk with
        | nil => rfl
        | snoc _ he => have := ((hedge _ _).1 he).2; omega
      subst hl hm
      apply List.ext_getElem?
      intro i
      match i with
      | 0 => exact l1
      | 1 => exact m1
      | i + 2 => rw [List.getElem?_eq_none (by omega), List.getElem?_eq_none (by simp)]
    have hlab : Run.Gives (labels id threads g t) (· = [0, 1]) := by
      rcases hid with rfl | rfl
      · exact (gives_runs (LpExp.lpcc_partial .plain g _ _ hg h0 (Nat.le_refl _))).mono hcomp
      · exact (gives_runs (LpExp.lpcc_partial .cyclic g _ _ hg h0 (Nat.le_refl _))).mono hcomp
    unfold bench
    refine (Run.gives_lift (Q := fun p => p = (g, t)) hr rfl).bind fun p hp => ?_
    subst hp
    refine hlab.bind fun comp hc => ?_
    subst hc
    have hin : CcVerify.Input g t [0, 1] := by
      refine ⟨hg, by rw [g2]; decide, Or.inr ⟨by rw [t2, g2]; rfl, fun u v => ?_⟩⟩
      rw [t3, g3]; simp
    obtain ⟨v1, v2⟩ := CcVerify.ccVerifier_always_false g t [0, 1] hin
    have hv : Run.Gives (verdict g t [0, 1]) (fun _ => True) := ⟨⟨_, v1⟩, fun o ho => ⟨false, v2 o ho, trivial⟩⟩
    refine hv.bind fun b _ => Run.gives_pure ?_
    show (counts [0, 1]).length = 2
    decide

/-! ## A case -/

/-- The contracts with insertion sort. -/
def exLib : Lib := ⟨id, fun lt => EdgeList.insertionSort lt, EdgeList.insertionSort (EdgeList.lexicalLt (fun _ _ => false) 0),
  ⟨id, EdgeList.insertionSort Csr.keyLt, EdgeList.insertionSort fun a b => decide (a < b)⟩, id, EdgeList.insertionSort fun p q => decide (p.2 > q.2)⟩

theorem exLib_conforms : exLib.Conforms := by
  refine ⟨fun _ => List.Perm.refl _, fun d key => ?_, ?_, ⟨fun _ => List.Perm.refl _, ?_, ?_⟩, fun _ => List.Perm.refl _, ?_⟩
  · refine (EdgeList.insertionSort_stable ?_ ?_ ?_).toIsSort <;> cases d <;> simp [Csr.degLt] <;> omega
  · refine (EdgeList.insertionSort_stable ?_ ?_ ?_).toIsSort <;> simp [EdgeList.lexicalLt, EdgeList.tupleLt] <;> omega
  · refine (EdgeList.insertionSort_stable ?_ ?_ ?_).toIsSort <;> simp [Csr.keyLt] <;> omega
  · refine (EdgeList.insertionSort_stable ?_ ?_ ?_).toIsSort <;> simp <;> omega
  · refine (EdgeList.insertionSort_stable ?_ ?_ ?_).toIsSort <;> simp <;> omega

/-- Six edges on seven vertices: a triangle with a loop, a pair listed twice, and two isolated vertices. -/
def exEl : EdgeList Unit := ⟨7, false, [0, 1, 2, 2, 4, 3], [1, 2, 0, 2, 3, 4], [(), (), (), (), (), ()]⟩

theorem exEl_loaded : Loaded exEl := ⟨⟨rfl, rfl⟩, by simp [EndpointsBelow, exEl, EdgeList.contents, EdgeList.numVertices], by decide⟩

example : Sound false 4 9 ∧ Sound true 4 11 := ⟨Or.inl (by simp), Or.inr ⟨rfl, Or.inr ⟨by decide, Or.inr rfl⟩⟩⟩

/-- Every option, version 9 on any file and version 11 on a symmetric one. -/
example (o : Opts) (symmetric : Bool) : Run.Gives (bench exLib o symmetric 9 4 exEl) (fun r => Right exEl r.1 ∧ r.2 = false) ∧
    Run.Gives (bench exLib o true 11 4 exEl) (fun r => Right exEl r.1 ∧ r.2 = false) :=
  ⟨bench_correct_partial exLib_conforms exEl_loaded o symmetric 9 4 (Or.inl (by simp)), bench_correct_partial exLib_conforms exEl_loaded o true 11 4 (Or.inr ⟨rfl, Or.inr ⟨by decide, Or.inr rfl⟩⟩)⟩

example : printTopN exLib [0, 0, 0, 3, 3, 5, 6] = ⟨4, [(0, 3), (3, 2), (5, 1), (6, 1)], 4⟩ ∧ printTopN exLib [0, 0, 0, 3, 3, 5, 6] 2 = ⟨2, [(0, 3), (3, 2)], 4⟩ := by
  constructor <;> rfl

example : Run.Gives (bench exLib ⟨false, .ascending, false, none⟩ false 10 4 exBack) (fun r => r.1.total = 2) :=
  (lpcc_splits_component exLib_conforms _ ⟨rfl, rfl⟩ 10 4 (Or.inl rfl) (by decide)).2

end NW.CcBench
