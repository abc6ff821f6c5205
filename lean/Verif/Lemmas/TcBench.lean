import Verif.Model.TcBench
import Verif.Spec.JoinedBy
import Verif.Props.SortBy
import Verif.Props.Relabel
import Verif.Props.TriangleExp

/-! # Lemmas for the triangle counting benchmark -/

namespace NW.TcBench
open Spec

/-! ## Renaming the vertices -/

theorem triangles_mem {n : Nat} {Adj : Nat → Nat → Prop} [DecidableRel Adj] {s : Finset Nat} :
    s ∈ triangles n Adj ↔ ((∀ a ∈ s, a < n) ∧ s.card = 3) ∧ ∀ a ∈ s, ∀ b ∈ s, a ≠ b → Adj a b := by
  unfold triangles
  rw [Finset.mem_filter, Finset.mem_powersetCard]
  constructor
  · rintro ⟨⟨h1, h2⟩, h3⟩
    exact ⟨⟨fun a ha => Finset.mem_range.1 (h1 ha), h2⟩, h3⟩
  · rintro ⟨⟨h1, h2⟩, h3⟩
    exact ⟨⟨fun a ha => Finset.mem_range.2 (h1 a ha), h2⟩, h3⟩

/-- A renaming of the vertices, one to one, keeps the number of triangles from falling. -/
theorem triangles_le {n : Nat} {Adj Adj' : Nat → Nat → Prop} [DecidableRel Adj] [DecidableRel Adj'] (f : Nat → Nat) (hf : ∀ a < n, f a < n)
    (hinj : ∀ a < n, ∀ b < n, f a = f b → a = b) (hadj : ∀ a < n, ∀ b < n, Adj a b → Adj' (f a) (f b)) : (triangles n Adj).card ≤ (triangles n Adj').card := by
  refine Finset.card_le_card_of_injOn (fun s => s.image f) ?_ ?_
  · intro s hs
    have hs := triangles_mem.1 (Finset.mem_coe.1 hs)
    refine Finset.mem_coe.2 (triangles_mem.2 ⟨⟨?_, ?_⟩, ?_⟩)
    · intro a ha
      obtain ⟨b, hb, rfl⟩ := Finset.mem_image.1 ha
      exact hf b (hs.1.1 b hb)
    · show (s.image f).card = 3
      rw [Finset.card_image_of_injOn, hs.1.2]
      intro a ha b hb hab
      exact hinj a (hs.1.1 a ha) b (hs.1.1 b hb) hab
    · intro a ha b hb hab
      obtain ⟨a', ha', rfl⟩ := Finset.mem_image.1 ha
      obtain ⟨b', hb', rfl⟩ := Finset.mem_image.1 hb
      exact hadj a' (hs.1.1 a' ha') b' (hs.1.1 b' hb') (hs.2 a' ha' b' hb' fun h => hab (by rw [h]))
  · intro s hs t ht hst
    have hs := triangles_mem.1 (Finset.mem_coe.1 hs)
    have ht := triangles_mem.1 (Finset.mem_coe.1 ht)
    have key : ∀ s t : Finset Nat, (∀ a ∈ s, a < n) → (∀ a ∈ t, a < n) → s.image f = t.image f → s ⊆ t := by
      intro s t hs ht hst a ha
      have : f a ∈ t.image f := hst ▸ Finset.mem_image_of_mem f ha
      obtain ⟨b, hb, hba⟩ := Finset.mem_image.1 this
      rwa [hinj b (ht b hb) a (hs a ha) hba] at hb
    exact Finset.Subset.antisymm (key s t hs.1.1 ht.1.1 hst) (key t s ht.1.1 hs.1.1 hst.symm)

/-- The number of triangles does not depend on the names of the vertices. -/
theorem edgeTriangles_rename {n : Nat} {es : List (Nat × Nat × Unit)} (hb : EndpointsBelow n es) {newId : List Nat} (hp : newId.Perm (List.range n)) :
    (edgeTriangles n (es.map (EdgeList.renameEdge fun v => newId.getD v 0))).card = (edgeTriangles n es).card := by
  have hlen : newId.length = n := by simpa using hp.length_eq
  have hnd : newId.Nodup := hp.symm.nodup List.nodup_range
  have hget : ∀ a (ha : a < n), newId.getD a 0 = newId[a]'(by omega) := fun a ha => by
    rw [List.getD_eq_getElem?_getD, List.getElem?_eq_getElem (by omega)]; rfl
  have hlt : ∀ a < n, newId.getD a 0 < n := fun a ha => by
    rw [hget a ha]; exact List.mem_range.1 (hp.mem_iff.1 (List.getElem_mem _))
  have hinj : ∀ a < n, ∀ b < n, newId.getD a 0 = newId.getD b 0 → a = b := fun a ha b hb he => by
    rw [hget a ha, hget b hb] at he; exact (List.Nodup.getElem_inj_iff hnd).1 he
  refine Nat.le_antisymm ?_ ?_
  · refine triangles_le (fun a => newId.idxOf a) ?_ ?_ ?_
    · intro a ha
      have := List.idxOf_lt_length_iff.2 (hp.mem_iff.2 (List.mem_range.2 ha))
      show newId.idxOf a < n
      omega
    · intro a ha b hb he
      exact (List.idxOf_inj (hp.mem_iff.2 (List.mem_range.2 ha))).1 he
    · intro a ha b hb' hj
      have back : ∀ v < n, newId.idxOf (newId.getD v 0) = v := fun v hv => by
        rw [hget v hv]; exact hnd.idxOf_getElem v (by omega)
      obtain ⟨h1, x, hx, h2⟩ := hj
      obtain ⟨y, hy, rfl⟩ := List.mem_map.1 hx
      have hyb := hb y hy
      simp only [EdgeList.renameEdge] at h2
      refine ⟨fun h => h1 ((List.idxOf_inj (hp.mem_iff.2 (List.mem_range.2 ha))).1 h), y, hy, ?_⟩
      rcases h2 with ⟨h3, h4⟩ | ⟨h3, h4⟩
      · left; rw [← h3, ← h4, back _ hyb.1, back _ hyb.2]; exact ⟨rfl, rfl⟩
      · right; rw [← h3, ← h4, back _ hyb.1, back _ hyb.2]; exact ⟨rfl, rfl⟩
  · refine triangles_le (fun a => newId.getD a 0) hlt hinj ?_
    intro a ha b hb' hj
    obtain ⟨h1, x, hx, h2⟩ := hj
    refine ⟨fun h => h1 (hinj a ha b hb' h), _, List.mem_map_of_mem hx, ?_⟩
    rcases h2 with ⟨rfl, rfl⟩ | ⟨rfl, rfl⟩
    · left; exact ⟨rfl, rfl⟩
    · right; exact ⟨rfl, rfl⟩

/-! ## clean -/

/-- What `clean` leaves: every pair of different vertices that are joined once, in the direction asked for, in lexicographic order. -/
theorem clean_spec (L : Lib) (hs : IsSort (EdgeList.lexicalLt (fun _ _ => false) 0) L.sortEdges) (c : Csr.Succession) (el : EdgeList Unit) :
    (clean L c el).numVertices = el.numVertices ∧ (clean L c el).Wf ∧
    ((clean L c el).contents.Pairwise fun a b => a.1 < b.1 ∨ (a.1 = b.1 ∧ a.2.1 < b.2.1)) ∧
    ∀ u v, (u, v, ()) ∈ (clean L c el).contents ↔ JoinedBy el.contents u v ∧ (match c with | .successor => u < v | .predecessor => v < u) := by
  have hsw : (el.swapToTriangularDyn 0 (some c)) = el.swapToTriangular 0 c := (EdgeList.swap_to_triangular_dyn 0 el).1 c
  have hswc : (el.swapToTriangular 0 c).contents = el.contents.map (EdgeList.swapStep 0 c) := (EdgeList.withContents_contents el _).1
  have hswn : (el.swapToTriangular 0 c).numVertices = el.numVertices := (EdgeList.withContents_contents el _).2.2
  obtain ⟨r1, r2⟩ := EdgeList.lexical_sort_by_correct 0 _ hs (el.swapToTriangular 0 c)
  simp only [if_true] at r2
  obtain ⟨u1, u2, u3, -, u4⟩ := EdgeList.uniq_correct _ r2
  obtain ⟨l1, l2, l3, l4⟩ := EdgeList.remove_self_loops_correct ((el.swapToTriangular 0 c).lexicalSortBy L.sortEdges).uniq
  have hdef : clean L c el = ((el.swapToTriangular 0 c).lexicalSortBy L.sortEdges).uniq.removeSelfLoops := by unfold clean; rw [hsw]
  rw [hdef]
  refine ⟨?_, (EdgeList.withContents_contents _ _).2.1, ?_, ?_⟩
  · rw [l4, u4, r1.vertices, hswn]
  · refine (u2.sublist l1).imp fun {a b} h => ?_
    obtain ⟨h1, h2⟩ := h
    simp only [EdgeList.LexLe, EdgeList.ends, ne_eq, Prod.mk.injEq] at h1 h2
    omega
  · intro u v
    rw [l3, List.mem_filter]
    have hm : (u, v, ()) ∈ ((el.swapToTriangular 0 c).lexicalSortBy L.sortEdges).uniq.contents ↔ ∃ x ∈ el.contents, EdgeList.swapStep 0 c x = (u, v, ()) := by
      rw [← List.mem_map, ← hswc]
      constructor
      · intro h; exact r1.perm.mem_iff.1 (u1.subset h)
      · intro h
        obtain ⟨⟨a, b, p⟩, hz, hze⟩ := u3 _ (r1.perm.mem_iff.2 h)
        simp only [EdgeList.ends, Prod.mk.injEq] at hze
        rw [← hze.1, ← hze.2]; exact hz
    rw [hm]
    unfold JoinedBy
    constructor
    · rintro ⟨⟨x, hx, he⟩, hne⟩
      have hne : u ≠ v := by simpa using hne
      obtain ⟨a, b, p⟩ := x
      cases c <;> simp only [EdgeList.swapStep] at he <;> simp at he <;> split at he <;> simp at he <;>
        refine ⟨⟨hne, _, hx, ?_⟩, ?_⟩ <;> simp <;> omega
    · rintro ⟨⟨hne, x, hx, he⟩, ho⟩
      refine ⟨⟨x, hx, ?_⟩, by simpa using hne⟩
      obtain ⟨a, b, p⟩ := x
      simp only at he
      cases c <;> simp only [EdgeList.swapStep] <;> simp <;> split <;> simp <;> simp at ho <;> omega

/-! ## compress -/

theorem compress_ok (f : Format) (el : EdgeList Unit) (hw : el.Wf) (hb : EndpointsBelow el.numVertices el.contents)
    (hs : el.contents.Pairwise fun a b => a.1 < b.1 ∨ (a.1 = b.1 ∧ a.2.1 < b.2.1)) :
    ∃ g, compress f el = .ok g ∧ g.length = el.numVertices ∧ ∀ u < el.numVertices, g[u]? = some (outEdges el.contents u) := by
  unfold compress
  rw [EdgeList.elems_of_wf hw, res_bind_ok]
  cases f with
  | csr =>
    obtain ⟨g, h1, h2, h3, h4, h5, -⟩ := Csr.push_back_fill_partial el.numVertices el.contents (hs.imp fun h => by omega) (fun x hx => (hb x hx).1)
    refine ⟨(List.range el.numVertices).map (outEdges el.contents), ?_, by simp, fun u hu => ?_⟩
    · show ((Csr.sized el.numVertices 0 : Csr Unit).pushBackFill el.contents >>= fun g => g.outer) = _
      rw [h1, res_bind_ok]
      unfold Csr.outer
      rw [h4]
      exact mapM_ok_of_forall fun u hu => h5 u (List.mem_range.1 hu)
    · rw [List.getElem?_map, List.getElem?_range hu]; rfl
  | lists =>
    have : ∀ (es : List (Nat × Nat × Unit)) (g : Vov Unit), (∀ x ∈ es, x.1 < g.length) →
        ∃ g', es.foldlM (fun g x => Vov.pushBack g x.1 x.2.1 x.2.2) g = .ok g' ∧ g'.length = g.length ∧ ∀ u r, g[u]? = some r → g'[u]? = some (r ++ outEdges es u) := by
      intro es
      induction es with
      | nil => intro g _; exact ⟨g, rfl, rfl, fun u r h => by rw [h]; simp [outEdges]⟩
      | cons x xs ih =>
        intro g hx
        have h0 := hx x (by simp)
        obtain ⟨g', k1, k2, k3⟩ := ih (g.set x.1 (g[x.1] ++ [(x.2.1, x.2.2)])) (fun y hy => by simpa using hx y (by simp [hy]))
        refine ⟨g', ?_, by simpa using k2, fun u r hr => ?_⟩
        · rw [List.foldlM_cons, Vov.pushBack_eq h0, Vov.emplace_ok h0, res_bind_ok, k1]
        · by_cases hu : x.1 = u
          · subst hu
            have hr' : g[x.1] = r := by rw [List.getElem?_eq_getElem h0] at hr; exact Option.some.inj hr
            rw [k3 x.1 (r ++ [(x.2.1, x.2.2)]) (by rw [List.getElem?_set_self h0, hr'])]
            simp [outEdges]
          · rw [k3 u r (by rw [List.getElem?_set_ne hu, hr])]
            simp [outEdges, hu]
    obtain ⟨g, k1, k2, k3⟩ := this el.contents (Vov.empty el.numVertices) (fun x hx => by simpa [Vov.empty] using (hb x hx).1)
    refine ⟨g, k1, by simpa [Vov.empty] using k2, fun u hu => ?_⟩
    have := k3 u [] (by simp [Vov.empty, hu])
    simpa using this

/-- The rows that `compress(clean(el))` gives. -/
theorem compress_clean (f : Format) (L : Lib) (hs : IsSort (EdgeList.lexicalLt (fun _ _ => false) 0) L.sortEdges) (c : Csr.Succession) (el : EdgeList Unit)
    (hb : EndpointsBelow el.numVertices el.contents) :
    ∃ g, compress f (clean L c el) = .ok g ∧ g.length = el.numVertices ∧
      (match c with | .successor => Upper g (JoinedBy el.contents) | .predecessor => Lower g (JoinedBy el.contents)) := by
  obtain ⟨c1, c2, c3, c4⟩ := clean_spec L hs c el
  have hjb : ∀ u v, JoinedBy el.contents u v → u < el.numVertices ∧ v < el.numVertices := by
    rintro u v ⟨-, x, hx, h⟩
    have := hb x hx
    omega
  have hb' : EndpointsBelow (clean L c el).numVertices (clean L c el).contents := by
    rintro ⟨u, v, p⟩ hx
    rw [c1]
    exact hjb u v ((c4 u v).1 hx).1
  obtain ⟨g, g1, g2, g3⟩ := compress_ok f (clean L c el) c2 hb' c3
  rw [c1] at g2 g3
  have hn : ∀ u, nbrs g u = if u < el.numVertices then (outEdges (clean L c el).contents u).map Prod.fst else [] := by
    intro u
    unfold nbrs
    rw [List.getD_eq_getElem?_getD]
    split
    · rename_i h; rw [g3 u h]; rfl
    · rw [List.getElem?_eq_none (by omega)]; rfl
  have hsorted : ∀ u, (nbrs g u).Pairwise (· < ·) := by
    intro u
    rw [hn]
    split
    · unfold outEdges
      rw [List.map_map, List.pairwise_map]
      have := (c3.filter fun x => decide (x.1 = u))
      refine List.Pairwise.imp_of_mem ?_ this
      intro a b ha hb hab
      have ha := (List.mem_filter.1 ha).2
      have hb := (List.mem_filter.1 hb).2
      simp only [decide_eq_true_eq] at ha hb
      simp only [Function.comp]
      omega
    · exact List.Pairwise.nil
  have hedge : ∀ u v, Edge g u v ↔ (u, v, ()) ∈ (clean L c el).contents := by
    intro u v
    unfold Edge
    rw [hn]
    constructor
    · split
      · intro h
        obtain ⟨⟨w, p⟩, hw, rfl⟩ := List.mem_map.1 h
        obtain ⟨⟨a, b, q⟩, hx, he⟩ := List.mem_map.1 hw
        have := (List.mem_filter.1 hx)
        simp only [decide_eq_true_eq, Prod.mk.injEq] at this he
        obtain ⟨h1, h2⟩ := this
        rw [← h2, ← he.1]; exact h1
      · intro h; simp at h
    · intro h
      have := hb' _ h
      rw [c1] at this
      rw [if_pos this.1]
      exact List.mem_map.2 ⟨(v, ()), List.mem_map.2 ⟨_, List.mem_filter.2 ⟨h, by simp⟩, rfl⟩, rfl⟩
  refine ⟨g, g1, g2, ?_⟩
  cases c with
  | successor =>
    refine ⟨hsorted, fun u v => ?_⟩
    rw [hedge, c4, g2]
    exact ⟨fun ⟨h1, h2⟩ => ⟨h2, (hjb u v h1).2, h1⟩, fun ⟨h1, _, h2⟩ => ⟨h2, h1⟩⟩
  | predecessor =>
    refine ⟨hsorted, fun u v => ?_⟩
    rw [hedge, c4, g2]
    exact ⟨fun ⟨h1, h2⟩ => ⟨h2, (hjb u v h1).1, h1⟩, fun ⟨h1, _, h2⟩ => ⟨h2, h1⟩⟩

/-! ## The verifier -/

theorem verifyEdge_eq {g : Rows Unit} (h : Triangle.Simple g) {strict : Bool} {st : Nat × Nat} {x : Nat × (Nat × Unit)} (hx : x ∈ Ranges.rowEdges (Triangle.rowAt g) 0 g.length) :
    verifyEdge strict g st x = if (if strict then st.1 else max st.1 g.length) < Triangle.edgeVal g x then .error .outOfBounds
      else .ok (Triangle.edgeVal g x, st.2 + Triangle.edgeVal g x) := by
  have h1 := Triangle.edgeCount_ok h (Nat.le_refl _) hx
  obtain ⟨hu, hm⟩ := Triangle.rowEdges_mem (Nat.le_refl _) hx
  have hv := h.lt (List.getElem_mem hu) hm
  unfold Triangle.edgeCount at h1
  unfold verifyEdge
  rw [vget_of_lt hu, res_bind_ok, vget_of_lt hv, res_bind_ok] at h1 ⊢
  rw [h1, res_bind_ok]
  rfl

theorem edgeVal_le {g : Rows Unit} (h : Triangle.Simple g) (x : Nat × (Nat × Unit)) : Triangle.edgeVal g x ≤ g.length := by
  unfold Triangle.edgeVal
  refine (List.length_filter_le _ _).trans ?_
  have hnd : (nbrs g x.1).Nodup := (h.sorted x.1).imp fun h => Nat.ne_of_lt h
  have : (nbrs g x.1) ⊆ List.range g.length := fun v hv => List.mem_range.2 (h.range x.1 v hv)
  simpa using (hnd.subperm this).length_le

theorem verify_lenient {g : Rows Unit} (h : Triangle.Simple g) :
    ∀ (es : List (Nat × (Nat × Unit))) (st : Nat × Nat), (∀ x ∈ es, x ∈ Ranges.rowEdges (Triangle.rowAt g) 0 g.length) →
      ∃ k, es.foldlM (verifyEdge false g) st = .ok (k, st.2 + (es.map (Triangle.edgeVal g)).sum) := by
  intro es
  induction es with
  | nil => intro st _; exact ⟨st.1, rfl⟩
  | cons x xs ih =>
    intro st hx
    obtain ⟨k, hk⟩ := ih (Triangle.edgeVal g x, st.2 + Triangle.edgeVal g x) (fun y hy => hx y (by simp [hy]))
    refine ⟨k, ?_⟩
    have hle := edgeVal_le h x
    rw [List.foldlM_cons, verifyEdge_eq h (hx x (by simp)), if_neg (by simp; omega), res_bind_ok, hk, List.map_cons, List.sum_cons, Nat.add_assoc]

theorem verify_strict {g : Rows Unit} (h : Triangle.Simple g) (t : Nat) :
    ∀ (es : List (Nat × (Nat × Unit))), (∀ x ∈ es, x ∈ Ranges.rowEdges (Triangle.rowAt g) 0 g.length) →
      es.foldlM (verifyEdge true g) (0, t) = if (es.map (Triangle.edgeVal g)).sum = 0 then .ok (0, t) else .error .outOfBounds := by
  intro es
  induction es with
  | nil => intro _; rfl
  | cons x xs ih =>
    intro hx
    rw [List.foldlM_cons, verifyEdge_eq h (hx x (by simp)), List.map_cons, List.sum_cons]
    rcases Nat.eq_zero_or_pos (Triangle.edgeVal g x) with h0 | h0
    · rw [h0]
      simp only [if_true, Nat.lt_irrefl, if_false, Nat.zero_add, Nat.add_zero]
      exact ih fun y hy => hx y (by simp [hy])
    · rw [if_pos (by simpa using h0), if_neg (by omega)]
      rfl

theorem tcVerifier_lenient {g : Rows Unit} {Adj : Nat → Nat → Prop} [DecidableRel Adj] (hsym : ∀ a b, Adj a b → Adj b a) (h : Upper g Adj ∨ Lower g Adj) :
    Run.Gives (tcVerifier false g) (· = (triangles g.length Adj).card) := by
  have hs := Triangle.either_simple h
  unfold tcVerifier
  refine (Triangle.edgeRange_gives g (Nat.zero_le _) (Nat.le_refl _)).bind ?_
  rintro _ rfl
  obtain ⟨k, hk⟩ := verify_lenient hs _ (0, 0) (fun _ hx => hx)
  refine Run.Gives.bind (Run.gives_lift hk rfl) ?_
  rintro _ rfl
  refine Run.gives_pure ?_
  rw [Nat.zero_add, Triangle.sum_edges, Triangle.sum_rows hsym h]

theorem tcVerifier_strict {g : Rows Unit} {Adj : Nat → Nat → Prop} [DecidableRel Adj] (hsym : ∀ a b, Adj a b → Adj b a) (h : Upper g Adj ∨ Lower g Adj) :
    if triangles g.length Adj = ∅ then Run.Gives (tcVerifier true g) (· = 0) else Run.Faults (tcVerifier true g) .outOfBounds := by
  have hs := Triangle.either_simple h
  have he := verify_strict hs 0 _ (fun _ hx => hx)
  rw [Triangle.sum_edges, Triangle.sum_rows hsym h] at he
  simp only [Finset.card_eq_zero] at he
  unfold tcVerifier
  split
  · rename_i h0
    rw [if_pos h0] at he
    refine (Triangle.edgeRange_gives g (Nat.zero_le _) (Nat.le_refl _)).bind ?_
    rintro _ rfl
    refine Run.Gives.bind (Run.gives_lift he rfl) ?_
    rintro _ rfl
    exact Run.gives_pure rfl
  · rename_i h0
    rw [if_neg h0] at he
    refine (Triangle.edgeRange_gives g (Nat.zero_le _) (Nat.le_refl _)).bind_faults ?_
    rintro _ rfl
    exact (Run.faults_lift he).bind

/-! ## The versions for the upper triangle on the lower triangle -/

section
variable {g : Rows Unit} {Adj : Nat → Nat → Prop} (h : Lower g Adj)
include h

theorem workerRow_lower {row : List (Nat × Unit)} (hr : row ∈ g) (acc : Nat) : Triangle.workerRow g acc row = .ok (acc + 0) := by
  have hs := Triangle.lower_simple h
  obtain ⟨k, k1, -, k3⟩ := Triangle.workerRow_ok h.sorted row (hs.rowSorted hr) (fun e he => hs.lt hr he) acc
  rw [k1, k3 fun v _ w hw => ((h.edges v w).1 hw).1]

theorem lower_v1 : Triangle.countV1 g = .ok 0 := by
  unfold Triangle.countV1
  rw [Triangle.foldlM_acc g _ (fun _ => 0) (fun row hr acc => workerRow_lower h hr acc)]
  simp

theorem lower_v5 (w threads : Nat) (ht : 0 < threads) (hw : threads < 2 ^ w) (hn : g.length < 2 ^ w) : Triangle.countV5 w g threads = .ok 0 := by
  unfold Triangle.countV5
  rw [Triangle.async_ok (h := fun _ => 0)]
  · simp
  · intro tid htid
    rw [Util.block_eq w _ _ _ ht hn hw htid, res_bind_ok]
    unfold Triangle.rowsFrom
    dsimp only
    rw [Triangle.foldlM_acc _ _ (fun _ => 0), Nat.zero_add]
    · simp
    intro u hu acc
    rw [List.mem_range'] at hu
    obtain ⟨i, hi, rfl⟩ := hu
    have := Util.cut_le g.length threads (tid + 1) (by omega)
    have hlt : Util.cut g.length threads tid + 1 * i < g.length := by omega
    rw [Triangle.vget_rowAt hlt, res_bind_ok]
    exact workerRow_lower h (by rw [Triangle.rowAt_eq hlt]; exact List.getElem_mem hlt) acc

theorem lower_v7 : Run.Gives (Triangle.countV7 g) (· = 0) := by
  have := Triangle.forEachAdd_gives g (fun row => Run.lift (Triangle.workerRow g 0 row)) (fun _ => 0) fun row hr => Run.gives_lift (workerRow_lower h hr 0) (Nat.zero_add _)
  refine this.mono fun n hn => ?_
  simpa using hn

theorem lower_v12 (stride : Nat) (h1 : 1 ≤ stride) (h2 : stride ≤ 2 ^ 62) : Run.Gives (Triangle.countV12 g stride) (· = 0) := by
  have := Triangle.cyclic_gives g stride h1 h2 (Triangle.workerRow g 0) (fun _ => 0) fun row hr => by rw [workerRow_lower h hr]
  refine this.mono fun n hn => ?_
  simpa using hn

end

end NW.TcBench
