import Verif.Model.CcBench
import Verif.Spec.ComponentSizes
import Verif.Spec.JoinedBy
import Verif.Props.SortBy
import Verif.Props.Relabel
import Verif.Props.CsrBuild
import Mathlib.Data.Finset.Dedup
import Mathlib.Data.Multiset.Count

/-! # Lemmas for the connected components benchmark -/

namespace NW.CcBench
open Spec

/-! ## Labels and sizes -/

/-- How often each label occurs. -/
def tally (c : List Nat) : Multiset Nat := (c.dedup : Multiset Nat).map fun l => c.count l

theorem tally_perm {c c' : List Nat} (h : c.Perm c') : tally c = tally c' := by
  unfold tally
  have h1 : (c.dedup : Multiset Nat) = (c'.dedup : Multiset Nat) := Multiset.coe_eq_coe.2 h.dedup
  rw [h1]
  exact Multiset.map_congr rfl fun x _ => h.count_eq x

theorem count_eq_card (c : List Nat) (l : Nat) : c.count l = ((Finset.range c.length).filter fun y => c[y]? = some l).card := by
  induction c using List.reverseRecOn with
  | nil => simp
  | append_singleton c a ih =>
    rw [List.count_append, ih, List.length_append, List.length_singleton, Finset.range_add_one, Finset.filter_insert]
    have h1 : (Finset.range c.length).filter (fun y => (c ++ [a])[y]? = some l) = (Finset.range c.length).filter fun y => c[y]? = some l := by
      apply Finset.filter_congr
      intro y hy
      rw [List.getElem?_append_left (Finset.mem_range.1 hy)]
    rw [h1]
    by_cases h : a = l
    · subst h
      rw [if_pos (by simp), Finset.card_insert_of_notMem (by simp)]
      simp
    · rw [if_neg (by simpa using h)]
      simp [h]

/-- Labels that tell components apart occur as often as the components are large. -/
theorem sizes_eq_tally {R : Nat → Nat → Prop} {n : Nat} {c : List Nat} (h : ComponentLabels R n c) (hl : c.length = n) : componentSizes R n = tally c := by
  classical
  let φ : Nat → Finset Nat := fun l => (Finset.range n).filter fun y => c[y]? = some l
  have hcomp : ∀ x, x < n → ∃ l, c[x]? = some l ∧ component R n x = φ l := by
    intro x hx
    refine ⟨c[x]'(by omega), List.getElem?_eq_getElem _, ?_⟩
    unfold component
    apply Finset.filter_congr
    intro y hy
    rw [← h.2 x y hx (Finset.mem_range.1 hy), List.getElem?_eq_getElem (by omega : x < c.length)]
    exact eq_comm
  have himg : components R n = c.toFinset.image φ := by
    ext s
    unfold components
    rw [Finset.mem_image, Finset.mem_image]
    constructor
    · rintro ⟨x, hx, rfl⟩
      obtain ⟨l, h1, h2⟩ := hcomp x (Finset.mem_range.1 hx)
      exact ⟨l, List.mem_toFinset.2 (List.mem_of_getElem? h1), h2.symm⟩
    · rintro ⟨l, hl', rfl⟩
      obtain ⟨x, hx⟩ := List.mem_iff_getElem?.1 (List.mem_toFinset.1 hl')
      have hxn : x < n := by rw [← hl]; exact (List.getElem?_eq_some_iff.1 hx).1
      obtain ⟨l', h1, h2⟩ := hcomp x hxn
      rw [hx] at h1
      cases h1
      exact ⟨x, Finset.mem_range.2 hxn, h2⟩
  have hinj : Set.InjOn φ c.toFinset := by
    intro a ha b hb hab
    obtain ⟨x, hx⟩ := List.mem_iff_getElem?.1 (List.mem_toFinset.1 (Finset.mem_coe.1 ha))
    have hxn : x < n := by rw [← hl]; exact (List.getElem?_eq_some_iff.1 hx).1
    have : x ∈ φ a := Finset.mem_filter.2 ⟨Finset.mem_range.2 hxn, hx⟩
    rw [hab] at this
    have := (Finset.mem_filter.1 this).2
    rw [hx] at this
    exact Option.some.inj this
  unfold componentSizes tally
  rw [himg, Finset.image_val_of_injOn hinj, Multiset.map_map]
  show Multiset.map _ (c.dedup : Multiset Nat) = _
  refine Multiset.map_congr rfl fun l _ => ?_
  rw [count_eq_card, hl]
  rfl

/-! ## print_top_n -/

theorem counts_spec (c : List Nat) : ((counts c).map Prod.fst).Nodup ∧ (∀ l, l ∈ (counts c).map Prod.fst ↔ l ∈ c) ∧ ∀ p ∈ counts c, p.2 = c.count p.1 := by
  induction c using List.reverseRecOn with
  | nil => exact ⟨List.nodup_nil, fun l => by simp [counts], fun p hp => by simp [counts] at hp⟩
  | append_singleton c a ih =>
    obtain ⟨h1, h2, h3⟩ := ih
    have he : counts (c ++ [a]) = bump (counts c) a := by unfold counts; rw [List.foldl_append]; rfl
    rw [he]
    unfold bump
    by_cases h : a ∈ c
    · have hany : (counts c).any (fun e => decide (e.1 = a)) = true := by
        obtain ⟨p, hp, hpa⟩ := List.mem_map.1 ((h2 a).2 h)
        exact List.any_eq_true.2 ⟨p, hp, decide_eq_true hpa⟩
      rw [if_pos hany]
      have hf : ((counts c).map fun e => if e.1 = a then (a, e.2 + 1) else e).map Prod.fst = (counts c).map Prod.fst := by
        rw [List.map_map]
        refine List.map_congr_left fun p _ => ?_
        show (if p.1 = a then (a, p.2 + 1) else p).1 = p.1
        split <;> simp_all
      rw [hf]
      refine ⟨h1, fun l => ?_, fun p hp => ?_⟩
      · rw [h2, List.mem_append, List.mem_singleton]
        constructor
        · exact Or.inl
        · rintro (k | rfl)
          · exact k
          · exact h
      · obtain ⟨q, hq, rfl⟩ := List.mem_map.1 hp
        have := h3 q hq
        by_cases k : q.1 = a
        · rw [if_pos k]; simp only [List.count_append, List.count_singleton_self]; rw [this, k]
        · rw [if_neg k, this, List.count_append]; simp [Ne.symm k]
    · have hany : ¬ (counts c).any (fun e => decide (e.1 = a)) = true := by
        intro k
        obtain ⟨p, hp, hpa⟩ := List.any_eq_true.1 k
        exact h ((h2 a).1 (List.mem_map.2 ⟨p, hp, of_decide_eq_true hpa⟩))
      rw [if_neg hany, List.map_append]
      refine ⟨?_, fun l => ?_, fun p hp => ?_⟩
      · refine List.nodup_append.2 ⟨h1, by simp, ?_⟩
        intro x hx y hy hxy
        simp at hy
        rw [hxy, hy] at hx
        exact h ((h2 a).1 hx)
      · rw [List.mem_append, h2, List.mem_append]; simp
      · rcases List.mem_append.1 hp with k | k
        · have : p.1 ≠ a := fun e => h ((h2 a).1 (List.mem_map.2 ⟨p, k, e⟩))
          rw [h3 p k, List.count_append]; simp [this.symm]
        · rw [List.mem_singleton] at k
          subst k
          simp [List.count_eq_zero_of_not_mem h]

theorem counts_tally (c : List Nat) : (((counts c).map Prod.snd : List Nat) : Multiset Nat) = tally c := by
  obtain ⟨h1, h2, h3⟩ := counts_spec c
  have hp : ((counts c).map Prod.fst).Perm c.dedup := (List.perm_ext_iff_of_nodup h1 (List.nodup_dedup c)).2 fun l => by rw [h2, List.mem_dedup]
  have he : (counts c).map Prod.snd = ((counts c).map Prod.fst).map fun l => c.count l := by
    rw [List.map_map]
    exact List.map_congr_left fun p hp => h3 p hp
  unfold tally
  rw [he, ← Multiset.coe_eq_coe.2 hp, Multiset.map_coe]

/-! ## The list of edges -/

theorem conn_joined {α : Type} (es : List (Nat × Nat × α)) (u v : Nat) : Conn (Listed es) u v ↔ Conn (JoinedBy es) u v := by
  constructor
  · intro h
    refine h.lift fun a b ⟨w, hw⟩ => ?_
    by_cases hab : a = b
    · rw [hab]; exact .refl _
    · exact .of ⟨hab, _, hw, Or.inl ⟨rfl, rfl⟩⟩
  · intro h
    refine h.lift fun a b ⟨_, x, hx, hw⟩ => ?_
    rcases hw with ⟨rfl, rfl⟩ | ⟨rfl, rfl⟩
    · exact .of ⟨x.2.2, hx⟩
    · exact (Conn.of ⟨x.2.2, hx⟩).symm

theorem joined_cleaned (L : Lib) (hs : IsSort (EdgeList.lexicalLt (fun _ _ => false) 0) L.sortEdges) (o : Opts) (el : EdgeList Unit) (hw : el.Wf) :
    (cleaned L o el).numVertices = el.numVertices ∧ (cleaned L o el).Wf ∧ ∀ u v, JoinedBy (cleaned L o el).contents u v ↔ JoinedBy el.contents u v := by
  unfold cleaned
  split
  · -- the exchange of the ends
    obtain ⟨s1, s2⟩ : (el.swapToTriangularDyn 0 o.succession).numVertices = el.numVertices ∧
        ∀ u v, JoinedBy (el.swapToTriangularDyn 0 o.succession).contents u v ↔ JoinedBy el.contents u v := by
      cases hc : o.succession with
      | none => exact ⟨rfl, fun u v => Iff.rfl⟩
      | some c =>
        have hsw : (el.swapToTriangularDyn 0 (some c)) = el.swapToTriangular 0 c := (EdgeList.swap_to_triangular_dyn 0 el).1 c
        have hswc : (el.swapToTriangular 0 c).contents = el.contents.map (EdgeList.swapStep 0 c) := (EdgeList.withContents_contents el _).1
        have hswn : (el.swapToTriangular 0 c).numVertices = el.numVertices := (EdgeList.withContents_contents el _).2.2
        rw [hsw]
        refine ⟨hswn, fun u v => ?_⟩
        rw [hswc]
        have hstep : ∀ x : Nat × Nat × Unit, EdgeList.swapStep 0 c x = x ∨ EdgeList.swapStep 0 c x = flipEdge x := by
          intro x
          cases c <;> simp only [EdgeList.swapStep, flipEdge] <;> simp
          · rcases Nat.lt_or_ge x.2.1 x.1 with k | k
            · exact Or.inr fun h => by omega
            · exact Or.inl fun h => by omega
          · rcases Nat.lt_or_ge x.1 x.2.1 with k | k
            · exact Or.inr fun h => by omega
            · exact Or.inl fun h => by omega
        unfold JoinedBy
        constructor
        · rintro ⟨h1, y, hy, h2⟩
          obtain ⟨x, hx, rfl⟩ := List.mem_map.1 hy
          refine ⟨h1, x, hx, ?_⟩
          rcases hstep x with k | k <;> rw [k] at h2
          · exact h2
          · simp only [flipEdge] at h2; exact h2.symm.imp (fun h => ⟨h.2, h.1⟩) (fun h => ⟨h.2, h.1⟩)
        · rintro ⟨h1, x, hx, h2⟩
          refine ⟨h1, _, List.mem_map_of_mem hx, ?_⟩
          rcases hstep x with k | k <;> rw [k]
          · exact h2
          · simp only [flipEdge]; exact h2.symm.imp (fun h => ⟨h.2, h.1⟩) (fun h => ⟨h.2, h.1⟩)
    obtain ⟨r1, r2⟩ := EdgeList.lexical_sort_by_correct 0 _ hs (el.swapToTriangularDyn 0 o.succession)
    simp only [if_true] at r2
    obtain ⟨u1, u2, u3, -, u4⟩ := EdgeList.uniq_correct _ r2
    obtain ⟨l1, l2, l3, l4⟩ := EdgeList.remove_self_loops_correct ((el.swapToTriangularDyn 0 o.succession).lexicalSortBy L.sortEdges).uniq
    refine ⟨?_, (EdgeList.withContents_contents _ _).2.1, fun u v => ?_⟩
    · dsimp only
      rw [l4, u4, r1.vertices, s1]
    · rw [← s2]
      dsimp only
      rw [l3]
      unfold JoinedBy
      constructor
      · rintro ⟨h1, x, hx, h2⟩
        exact ⟨h1, x, r1.perm.mem_iff.1 (u1.subset (List.mem_filter.1 hx).1), h2⟩
      · rintro ⟨h1, x, hx, h2⟩
        obtain ⟨z, hz, hze⟩ := u3 _ (r1.perm.mem_iff.2 hx)
        simp only [EdgeList.ends, Prod.mk.injEq] at hze
        refine ⟨h1, z, List.mem_filter.2 ⟨hz, ?_⟩, by rw [hze.1, hze.2]; exact h2⟩
        rw [hze.1, hze.2]
        have : x.1 ≠ x.2.1 := by rcases h2 with ⟨rfl, rfl⟩ | ⟨rfl, rfl⟩; exacts [h1, h1.symm]
        simpa using this
  · exact ⟨rfl, hw, fun u v => Iff.rfl⟩

theorem mem_outEdges {α : Type} {es : List (Nat × Nat × α)} {u v : Nat} : v ∈ (outEdges es u).map Prod.fst ↔ Listed es u v := by
  unfold outEdges Listed
  simp only [List.map_map, List.mem_map, List.mem_filter, decide_eq_true_eq, Function.comp]
  constructor
  · rintro ⟨x, ⟨hx, rfl⟩, rfl⟩; exact ⟨_, hx⟩
  · rintro ⟨a, ha⟩; exact ⟨_, ⟨ha, rfl⟩, rfl⟩

theorem mem_inEdges {α : Type} {es : List (Nat × Nat × α)} {u v : Nat} : v ∈ (inEdges es u).map Prod.fst ↔ Listed es v u := by
  unfold inEdges Listed
  simp only [List.map_map, List.mem_map, List.mem_filter, decide_eq_true_eq, Function.comp]
  constructor
  · rintro ⟨x, ⟨hx, rfl⟩, rfl⟩; exact ⟨_, hx⟩
  · rintro ⟨a, ha⟩; exact ⟨_, ⟨ha, rfl⟩, rfl⟩

/-- The rows of an adjacency built from a list of edges. -/
theorem adjacency_ok (L : Lib) (ho : L.build.Ok) (directed : Bool) (idx : Nat) (hidx : idx < 2) (el : EdgeList Unit) (hw : el.Wf) (hb : EndpointsBelow el.numVertices el.contents) :
    ∃ g, adjacency L directed idx el = .ok g ∧ g.length = el.numVertices ∧
      ∀ u v, Edge g u v ↔ if directed then (if idx = 0 then Listed el.contents u v else Listed el.contents v u) else Listed el.contents u v ∨ Listed el.contents v u := by
  obtain ⟨g, h1, h3, h5⟩ : ∃ g, Csr.ofEdgeList L.build directed idx false el = .ok g ∧ g.numVertices = el.numVertices ∧
      ∀ u, u < el.numVertices → ∃ r, g.row u = .ok r ∧ r.Perm (if directed then (if idx = 0 then outEdges el.contents u else inEdges el.contents u)
        else outEdges el.contents u ++ inEdges el.contents u) := by
    cases directed with
    | true =>
      obtain ⟨g, h1, -, h3, -, h5, -⟩ := Csr.csr_directed_build L.build ho el hw hb idx hidx
      exact ⟨g, h1, h3, by simpa using h5⟩
    | false =>
      obtain ⟨g, h1, -, h3, -, h5, -⟩ := Csr.csr_undirected_build L.build ho el hw hb idx hidx
      exact ⟨g, h1, h3, by simpa using h5⟩
  choose! f hf1 hf2 using h5
  refine ⟨(List.range el.numVertices).map f, ?_, by simp, fun u v => ?_⟩
  · unfold adjacency rowsOf
    rw [h1, res_bind_ok, h3]
    exact mapM_ok_of_forall fun u hu => hf1 u (List.mem_range.1 hu)
  · rcases Nat.lt_or_ge u el.numVertices with hu | hu
    · have : nbrs ((List.range el.numVertices).map f) u = (f u).map Prod.fst := by
        unfold nbrs
        rw [List.getD_eq_getElem?_getD, List.getElem?_map, List.getElem?_range hu]; rfl
      unfold Edge
      rw [this, ((hf2 u hu).map Prod.fst).mem_iff]
      cases directed with
      | true =>
        simp only [if_true]
        split
        · exact mem_outEdges
        · exact mem_inEdges
      | false =>
        simp only [Bool.false_eq_true, if_false, List.map_append, List.mem_append]
        rw [mem_outEdges, mem_inEdges]
    · have hE : ¬ Edge ((List.range el.numVertices).map f) u v := fun h => by have := h.src_lt; simp at this; omega
      have h2 : ¬ Listed el.contents u v := fun ⟨a, ha⟩ => by have := (hb _ ha).1; simp at this; omega
      have h3 : ¬ Listed el.contents v u := fun ⟨a, ha⟩ => by have := (hb _ ha).2; simp at this; omega
      cases directed <;> simp [hE, h2, h3]

theorem cleaned_below (L : Lib) (hs : IsSort (EdgeList.lexicalLt (fun _ _ => false) 0) L.sortEdges) (o : Opts) (el : EdgeList Unit) (hw : el.Wf) (hb : EndpointsBelow el.numVertices el.contents) :
    EndpointsBelow (cleaned L o el).numVertices (cleaned L o el).contents := by
  obtain ⟨h1, -, h3⟩ := joined_cleaned L hs o el hw
  rw [h1]
  intro x hx
  by_cases hne : x.1 = x.2.1
  · unfold cleaned at hx
    split at hx
    · obtain ⟨-, -, l3, -⟩ := EdgeList.remove_self_loops_correct ((el.swapToTriangularDyn 0 o.succession).lexicalSortBy L.sortEdges).uniq
      dsimp only at hx
      rw [l3] at hx
      have := (List.mem_filter.1 hx).2
      simp [hne] at this
    · exact hb x hx
  · obtain ⟨-, y, hy, h⟩ := (h3 x.1 x.2.1).1 ⟨hne, x, hx, Or.inl ⟨rfl, rfl⟩⟩
    have := hb y hy
    rcases h with ⟨h4, h5⟩ | ⟨h4, h5⟩ <;> rw [← h4, ← h5]
    · exact this
    · exact ⟨this.2, this.1⟩

theorem bind_ok {α β : Type} {m : Res α} {k : α → Res β} {b : β} (h : (m >>= k) = .ok b) : ∃ a, m = .ok a ∧ k a = .ok b := by
  cases m with
  | error f => cases h
  | ok a => exact ⟨a, rfl, h⟩

theorem relabel_wf {sched : List Nat → List Nat} {srt : (Nat → Nat → Bool) → List Nat → List Nat} {directed : Bool} {d : Csr.Direction} {degree : List Nat} {el el' : EdgeList Unit} {newId : List Nat}
    (h : el.relabelByDegree sched srt directed 0 d degree = .ok (el', newId)) : el'.Wf := by
  have key : ∀ perm, el.relabel perm = .ok (el', newId) → el'.Wf := by
    intro perm h
    unfold EdgeList.relabel at h
    cases h1 : Csr.invertPerm perm with
    | error f => rw [h1] at h; cases h
    | ok q =>
      rw [h1, res_bind_ok] at h
      obtain ⟨es, h2, h3⟩ := bind_ok h
      cases h3
      exact (EdgeList.withContents_contents _ _).2.1
  unfold EdgeList.relabelByDegree at h
  dsimp only at h
  split at h
  · obtain ⟨dg, -, h3⟩ := bind_ok h
    exact key _ h3
  · exact key _ h

theorem conn_map {R R' : Nat → Nat → Prop} (φ : Nat → Nat) (h : ∀ a b, R a b → R' (φ a) (φ b)) {x y : Nat} (hc : Conn R x y) : Conn R' (φ x) (φ y) := by
  induction hc with
  | refl => exact .refl _
  | fwd _ hr ih => exact .fwd ih (h _ _ hr)
  | bwd _ hr ih => exact .bwd ih (h _ _ hr)

/-- Components do not depend on the names of the vertices. -/
theorem conn_rename {n : Nat} {es : List (Nat × Nat × Unit)} (hb : EndpointsBelow n es) {newId : List Nat} (hp : newId.Perm (List.range n)) {u v : Nat} (hu : u < n) (hv : v < n) :
    Conn (Listed (es.map (EdgeList.renameEdge fun v => newId.getD v 0))) (newId.getD u 0) (newId.getD v 0) ↔ Conn (Listed es) u v := by
  have hlen : newId.length = n := by simpa using hp.length_eq
  have hnd : newId.Nodup := hp.symm.nodup List.nodup_range
  have back : ∀ a, a < n → newId.idxOf (newId.getD a 0) = a := fun a ha => by
    rw [List.getD_eq_getElem?_getD, List.getElem?_eq_getElem (by omega)]
    exact hnd.idxOf_getElem a (by omega)
  constructor
  · intro h
    have := conn_map (R' := Listed es) (fun a => newId.idxOf a) (fun a b ⟨w, hw⟩ => by
      obtain ⟨x, hx, hxe⟩ := List.mem_map.1 hw
      simp only [EdgeList.renameEdge, Prod.mk.injEq] at hxe
      have := hb x hx
      refine ⟨x.2.2, ?_⟩
      rw [← hxe.1, ← hxe.2.1, back _ this.1, back _ this.2]
      exact hx) h
    simpa only [back u hu, back v hv] using this
  · intro h
    exact conn_map (fun a => newId.getD a 0) (fun a b ⟨w, hw⟩ => ⟨w, List.mem_map.2 ⟨_, hw, rfl⟩⟩) h

end NW.CcBench
