import Verif.Lemmas.Csr
import Verif.Props.EdgeList
import Verif.Spec.Graph

/-! Helper lemmas for the construction of compressed structures from edge lists. -/

namespace NW
open Spec

namespace EdgeList
variable {α : Type}

theorem Wf.zip_map_fst {el : EdgeList α} (h : el.Wf) : el.contents.map (·.1) = el.col0 := by
  unfold contents
  apply List.ext_getElem
  · simp; obtain ⟨h1, h2⟩ := h; omega
  · intro i h1 h2; simp

theorem Wf.zip_map_snd {el : EdgeList α} (h : el.Wf) : el.contents.map (·.2.1) = el.col1 := by
  unfold contents
  apply List.ext_getElem
  · simp; obtain ⟨h1, h2⟩ := h; omega
  · intro i h1 h2; simp

theorem Wf.zip_map_attrs {el : EdgeList α} (h : el.Wf) : el.contents.map (·.2.2) = el.attrs := by
  unfold contents
  apply List.ext_getElem
  · simp; obtain ⟨h1, h2⟩ := h; omega
  · intro i h1 h2; simp

theorem Wf.zip_flip {el : EdgeList α} (h : el.Wf) :
    el.col1.zip (el.col0.zip el.attrs) = el.contents.map flipEdge := by
  unfold contents
  apply List.ext_getElem
  · simp; obtain ⟨h1, h2⟩ := h; omega
  · intro i h1 h2; simp [flipEdge]

/-- The edges as seen from endpoint `idx`. -/
def oriented (idx : Nat) (es : List (Nat × Nat × α)) : List (Nat × Nat × α) :=
  if idx = 0 then es else es.map flipEdge

theorem Wf.zip_oriented {el : EdgeList α} (h : el.Wf) {idx : Nat} (hidx : idx < 2) :
    (el.col idx).zip ((el.col ((idx + 1) % 2)).zip el.attrs) = oriented idx el.contents := by
  have : idx = 0 ∨ idx = 1 := by omega
  rcases this with rfl | rfl
  · rfl
  · exact h.zip_flip

theorem oriented_keys {idx : Nat} (es : List (Nat × Nat × α)) :
    (oriented idx es).map (·.1) = if idx = 0 then es.map (·.1) else es.map (·.2.1) := by
  unfold oriented; split <;> simp [flipEdge, Function.comp_def]

theorem Wf.col_eq {el : EdgeList α} (h : el.Wf) (idx : Nat) :
    el.col idx = (oriented idx el.contents).map (·.1) := by
  rw [oriented_keys]; unfold col; split
  · exact h.zip_map_fst.symm
  · exact h.zip_map_snd.symm

theorem Wf.col_length {el : EdgeList α} (h : el.Wf) (idx : Nat) : (el.col idx).length = el.size := by
  unfold col size; split
  · rfl
  · exact h.1

theorem oriented_below {n idx : Nat} {es : List (Nat × Nat × α)} (h : EndpointsBelow n es) :
    EndpointsBelow n (oriented idx es) := by
  unfold oriented; split
  · exact h
  · intro x hx
    obtain ⟨y, hy, rfl⟩ := List.mem_map.1 hx
    exact (h y hy).symm

theorem oriented_outEdges {idx : Nat} (es : List (Nat × Nat × α)) (u : Nat) :
    outEdges (oriented idx es) u = if idx = 0 then outEdges es u else inEdges es u := by
  unfold oriented; split
  · rfl
  · simp [outEdges, inEdges, List.filter_map, flipEdge, Function.comp_def]; rfl

end EdgeList

namespace Csr
variable {α : Type}
open EdgeList

theorem offsets_ok {ind0 deg : List Nat} {n : Nat} (h0 : ind0.length = n + 1) (hd : deg.length = n) :
    (do let ind ← vset ind0 0 0; vcopy ind 1 (inclusiveScan 0 deg) : Res (List Nat)) =
      .ok (0 :: inclusiveScan 0 deg) := by
  have hs := inclusiveScan_length 0 deg
  rw [vset_of_lt (by omega), res_bind_ok, vcopy_of_le (by simp; omega)]
  congr 1
  rw [List.drop_eq_nil_of_le (by simp; omega)]
  cases ind0 with
  | nil => simp at h0
  | cons x xs => simp

theorem counts_perm {l l' : List Nat} (h : l.Perm l') (n : Nat) :
    ((List.range n).map fun u => l.count u) = (List.range n).map fun u => l'.count u := by
  apply List.map_congr_left
  intro u _
  exact h.count_eq u

/-- Degrees of a directed list. -/
theorem degrees_directed {sched : List Nat → List Nat} (hs : IsSchedule sched) {el : EdgeList α} (hw : el.Wf)
    (hb : EndpointsBelow el.numVertices el.contents) {idx : Nat} :
    el.degrees sched true idx =
      .ok ((List.range el.numVertices).map fun u => ((oriented idx el.contents).map (·.1)).count u) := by
  unfold EdgeList.degrees
  have hev : el.degreeEvents true idx = (oriented idx el.contents).map (·.1) := by
    simp [degreeEvents, hw.col_eq]
  rw [vincrAll_counts]
  · rw [counts_perm (hs _), hev]
  · intro i hi
    have : i ∈ el.degreeEvents true idx := (hs _).mem_iff.1 hi
    rw [hev] at this
    obtain ⟨x, hx, rfl⟩ := List.mem_map.1 this
    exact (oriented_below hb x hx).1

theorem fillDirected_ok [Inhabited α] {o : Oracles α} (ho : o.Ok) {el : EdgeList α} (hw : el.Wf)
    (hb : EndpointsBelow el.numVertices el.contents) {idx : Nat} (hidx : idx < 2) (cs : Csr α) :
    ∃ g z, fillDirected o.sched o.srt true idx el el.numVertices cs = .ok g ∧
      z = o.srt (oriented idx el.contents) ∧
      g = { cs with indices := 0 :: inclusiveScan 0 ((List.range el.numVertices).map fun v => (z.map (·.1)).count v)
                    tgt := z.map (·.2.1), attrs := z.map (·.2.2) } := by
  refine ⟨_, _, ?_, rfl, rfl⟩
  have hp : (o.srt (oriented idx el.contents)).Perm (oriented idx el.contents) := ho.srt.perm _
  have hoff := offsets_ok (ind0 := vresize cs.indices (el.numVertices + 1) 0)
    (deg := (List.range el.numVertices).map fun u => ((oriented idx el.contents).map (·.1)).count u)
    (n := el.numVertices) (by simp) (by simp)
  have ht : vcopy (vresize cs.tgt el.size 0) 0 (el.col ((idx + 1) % 2)) = .ok (el.col ((idx + 1) % 2)) :=
    vcopy_all (by simp [hw.col_length])
  have ha : vcopy (vresize cs.attrs el.size default) 0 el.attrs = .ok el.attrs :=
    vcopy_all (by simp [hw.2, size])
  unfold fillDirected
  rw [degrees_directed ho.sched hw hb, res_bind_ok]
  rw [vset_of_lt (by simp), res_bind_ok]
  rw [vset_of_lt (by simp), res_bind_ok] at hoff
  rw [hoff, res_bind_ok, ht, res_bind_ok, ha, res_bind_ok, hw.zip_oriented hidx, counts_perm (hp.map _)]
  rfl

theorem fillUndirected_ok [Inhabited α] {o : Oracles α} (ho : o.Ok) {el : EdgeList α} (hw : el.Wf)
    (hb : EndpointsBelow el.numVertices el.contents) {idx : Nat} (hidx : idx < 2) (cs : Csr α) :
    ∃ g z, fillUndirected o.srt idx el el.numVertices cs = .ok g ∧
      z = o.srt (oriented idx el.contents ++ oriented ((idx + 1) % 2) el.contents) ∧
      g = { cs with indices := 0 :: inclusiveScan 0 ((List.range el.numVertices).map fun v => (z.map (·.1)).count v)
                    tgt := z.map (·.2.1), attrs := z.map (·.2.2) } := by
  refine ⟨_, _, ?_, rfl, rfl⟩
  have hp := ho.srt.perm (oriented idx el.contents ++ oriented ((idx + 1) % 2) el.contents)
  have hlc : ∀ i, (el.col i).length = el.size := hw.col_length
  have hcopy2 : ∀ {β : Type} (v a b : List β), v.length = 2 * el.size → a.length = el.size → b.length = el.size →
      (do let t ← vcopy v 0 a; vcopy t el.size b : Res (List β)) = .ok (a ++ b) := by
    intro β v a b hv ha hb'
    rw [vcopy_of_le (by omega), res_bind_ok, vcopy_of_le (by simp; omega)]
    congr 1
    have e1 : (v.take 0 ++ a ++ v.drop (0 + a.length)).take el.size = a := by
      rw [List.take_zero, List.nil_append]
      exact take_of_eq_append rfl ha.symm
    have e2 : (v.take 0 ++ a ++ v.drop (0 + a.length)).drop (el.size + b.length) = [] := by
      apply List.drop_eq_nil_of_le; simp; omega
    rw [e1, e2, List.append_nil]
  have htmp := hcopy2 (List.replicate (2 * el.size) 0) (el.col idx) (el.col ((idx + 1) % 2)) (by simp) (hlc _) (hlc _)
  have hsum : (el.col idx ++ el.col ((idx + 1) % 2)).length = 2 * el.size := by simp [hlc]; omega
  have htgt := hcopy2 (vresize cs.tgt (2 * el.size) 0) (el.col ((idx + 1) % 2)) (el.col idx) (by simp) (hlc _) (hlc _)
  have hatt := hcopy2 (vresize cs.attrs (2 * el.size) default) el.attrs el.attrs (by simp) hw.2 hw.2
  have hdeg : vincrAll (List.replicate el.numVertices 0) (el.col idx ++ el.col ((idx + 1) % 2)) =
      .ok ((List.range el.numVertices).map fun u => (el.col idx ++ el.col ((idx + 1) % 2)).count u) := by
    apply vincrAll_counts
    intro i hi
    have : ∀ j, i ∈ el.col j → i < el.numVertices := by
      intro j hj
      rw [hw.col_eq] at hj
      obtain ⟨x, hx, rfl⟩ := List.mem_map.1 hj
      exact (oriented_below hb x hx).1
    rcases List.mem_append.1 hi with h | h
    · exact this _ h
    · exact this _ h
  have hoff := offsets_ok (ind0 := vresize cs.indices (el.numVertices + 1) 0)
    (deg := (List.range el.numVertices).map fun u => (el.col idx ++ el.col ((idx + 1) % 2)).count u)
    (n := el.numVertices) (by simp) (by simp)
  have hzip : (el.col idx ++ el.col ((idx + 1) % 2)).zip
      ((el.col ((idx + 1) % 2) ++ el.col idx).zip (el.attrs ++ el.attrs)) =
      oriented idx el.contents ++ oriented ((idx + 1) % 2) el.contents := by
    have h2 : ((idx + 1) % 2 + 1) % 2 = idx := by omega
    have hz2 := hw.zip_oriented (idx := (idx + 1) % 2) (by omega)
    rw [h2] at hz2
    rw [List.zip_append (by rw [hlc]; exact hw.2.symm), List.zip_append, hw.zip_oriented hidx, hz2]
    rw [List.length_zip, hlc, hlc, hw.2]; simp [size]
  have hkeys : (el.col idx ++ el.col ((idx + 1) % 2)) =
      (oriented idx el.contents ++ oriented ((idx + 1) % 2) el.contents).map (·.1) := by
    rw [List.map_append, hw.col_eq, hw.col_eq]
  unfold fillUndirected
  rw [vcopy_of_le (by simp [hlc]; omega), res_bind_ok] at htmp htgt
  rw [vcopy_of_le (by simp [hw.2, size]; omega), res_bind_ok] at hatt
  rw [vset_of_lt (by simp), res_bind_ok] at hoff
  simp only []
  rw [vcopy_of_le (by simp [hlc]; omega), res_bind_ok, htmp, res_bind_ok, hsum,
    vset_of_lt (by simp), res_bind_ok, hdeg, res_bind_ok, hoff, res_bind_ok,
    vcopy_of_le (by simp [hlc]; omega), res_bind_ok, htgt, res_bind_ok,
    vcopy_of_le (by simp [hw.2, size]; omega), res_bind_ok, hatt, res_bind_ok, hzip, hkeys,
    counts_perm (hp.symm.map (·.1))]
  rfl

end Csr
end NW

namespace NW.Csr
variable {α : Type}
open Spec EdgeList

theorem filter_map_eq_outEdges (z : List (Nat × Nat × α)) (u : Nat) :
    (z.filter fun x => decide (x.1 = u)).map (·.2) = outEdges z u := rfl

theorem outEdges_perm {z z' : List (Nat × Nat × α)} (h : z.Perm z') (u : Nat) :
    (outEdges z u).Perm (outEdges z' u) := (h.filter _).map _

theorem oriented_length (i : Nat) (es : List (Nat × Nat × α)) : (oriented i es).length = es.length := by
  unfold oriented; split <;> simp

/-- The result of `fill` into any structure `cs`. -/
theorem fill_ok [Inhabited α] {o : Oracles α} (ho : o.Ok) {el : EdgeList α} (hw : el.Wf)
    (hb : EndpointsBelow el.numVertices el.contents) (directed : Bool) {idx : Nat} (hidx : idx < 2) (cs : Csr α) :
    ∃ g, fill o directed idx false el cs = .ok g ∧ g.Wf ∧ g.N = cs.N ∧ g.isOpen = cs.isOpen ∧
      g.numVertices = el.numVertices ∧ g.numEdges = (if directed then el.size else 2 * el.size) ∧
      ∀ u, u < el.numVertices → ∃ r, g.row u = .ok r ∧ r.Perm
        (if directed then (if idx = 0 then outEdges el.contents u else inEdges el.contents u)
         else outEdges el.contents u ++ inEdges el.contents u) := by
  cases directed with
  | true =>
    obtain ⟨g, z, hg, hz, he⟩ := fillDirected_ok ho hw hb hidx cs
    have hp : z.Perm (oriented idx el.contents) := hz ▸ ho.srt.perm _
    obtain ⟨h1, h2, h3⟩ := counting_sort (z := z) (n := el.numVertices) (g := g)
      (hz ▸ keySort_sorted ho.srt _) (fun x hx => (oriented_below hb x (hp.mem_iff.1 hx)).1)
      (by rw [he]) (by rw [he]) (by rw [he])
    refine ⟨g, ?_, h1, by rw [he], by rw [he], h2, ?_, ?_⟩
    · simp only [fill, fillDir, if_true, hg, res_bind_ok]; rfl
    · rw [he]
      simp only [numEdges, List.length_map, hp.length_eq, if_true, oriented_length, contents_length hw]
    · intro u hu
      refine ⟨_, h3 u hu, ?_⟩
      simp only [if_true]
      rw [filter_map_eq_outEdges, ← oriented_outEdges]
      exact outEdges_perm hp u
  | false =>
    obtain ⟨g, z, hg, hz, he⟩ := fillUndirected_ok ho hw hb hidx cs
    have hp : z.Perm (oriented idx el.contents ++ oriented ((idx + 1) % 2) el.contents) := hz ▸ ho.srt.perm _
    have hkey : ∀ x ∈ z, x.1 < el.numVertices := by
      intro x hx
      rcases List.mem_append.1 (hp.mem_iff.1 hx) with h | h
      · exact (oriented_below hb x h).1
      · exact (oriented_below hb x h).1
    obtain ⟨h1, h2, h3⟩ := counting_sort (z := z) (n := el.numVertices) (g := g)
      (hz ▸ keySort_sorted ho.srt _) hkey (by rw [he]) (by rw [he]) (by rw [he])
    refine ⟨g, ?_, h1, by rw [he], by rw [he], h2, ?_, ?_⟩
    · simp only [fill, fillDir, Bool.false_eq_true, if_false, hg, res_bind_ok]; rfl
    · rw [he]
      simp only [numEdges, List.length_map, hp.length_eq, List.length_append, oriented_length, contents_length hw]
      simp; omega
    · intro u hu
      refine ⟨_, h3 u hu, ?_⟩
      simp only [Bool.false_eq_true, if_false]
      rw [filter_map_eq_outEdges]
      refine (outEdges_perm hp u).trans ?_
      have : outEdges (oriented idx el.contents ++ oriented ((idx + 1) % 2) el.contents) u =
          outEdges (oriented idx el.contents) u ++ outEdges (oriented ((idx + 1) % 2) el.contents) u := by
        simp [outEdges]
      rw [this, oriented_outEdges, oriented_outEdges]
      have : idx = 0 ∨ idx = 1 := by omega
      rcases this with rfl | rfl
      · exact List.Perm.refl _
      · exact List.perm_append_comm

end NW.Csr
