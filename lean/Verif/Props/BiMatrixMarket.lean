import Verif.Model.BiMatrixMarket
import Verif.Props.MatrixMarket
import Verif.Props.BiAdjacency

/-!
# C82: Matrix Market files of bipartite graphs
-/

namespace NW.MM
open NW.Spec
open NW.BiCsr (partSize)

variable {α : Type} {V : Val α} {w : Nat}

/-! ## Helper lemmas -/

theorem mapM_getElem_ok {β γ : Type} {f : β → Res γ} : ∀ {l : List β} {ys : List γ}, l.length = ys.length →
    (∀ i (h1 : i < l.length) (h2 : i < ys.length), f l[i] = .ok ys[i]) → l.mapM f = .ok ys
  | [], [], _, _ => rfl
  | x :: l, y :: ys, hl, h => by
    have h0 := h 0 (by simp) (by simp)
    simp only [List.getElem_cons_zero] at h0
    have ih := mapM_getElem_ok (f := f) (l := l) (ys := ys) (by simpa using hl) fun i h1 h2 => by
      have := h (i + 1) (by simpa using h1) (by simpa using h2)
      simpa using this
    rw [List.mapM_cons, h0, res_bind_ok, ih]
    rfl

theorem bi_elems {el : BiEdgeList α} {m n : Nat} {es : List (Nat × Nat × α)} (h : BiCsr.Is el m n es) : el.elems = .ok es := by
  unfold BiEdgeList.elems
  apply mapM_getElem_ok
  · rw [List.length_range, h.size]
  · intro i h1 h2
    have hc0 : i < el.col0.length := by rw [h.col0]; simpa using h2
    have hc1 : i < el.col1.length := by rw [h.col1]; simpa using h2
    have hca : i < el.attrs.length := by rw [h.attrs]; simpa using h2
    rw [List.getElem_range, BiEdgeList.at, vget_of_lt hc0, vget_of_lt hc1, vget_of_lt hca]
    simp [h.col0, h.col1, h.attrs, res_bind_ok, res_pure]

theorem fillBi_run {F : MMFile} (hf : Fits w F) (hs : F.symmetric = false) {lines : List (List Char)} {entries : List (Nat × Nat × List Char)}
    (he : ∀ e ∈ entries, e ∈ F.entries) (h : List.Forall₂ (EntryLine (F.field = kwPattern)) entries lines) {cs : List Char}
    (hl : HasLines lines cs) (el : BiEdgeList α) :
    fillBi V w F.symmetric (decide (F.field = kwPattern)) entries.length cs el =
      BiEdgeList.pushAll w el (undirectedEdges V { F with entries := entries }) := by
  induction h generalizing cs el with
  | nil => rfl
  | cons h1 h2 ih =>
    rename_i e l es ls
    obtain ⟨rest, g, l'⟩ := HasLines.head hl
    obtain ⟨b1, b2, b3, b4⟩ := hf.entries e (he e (by simp))
    have w64 : 2 ^ w ≤ 2 ^ 64 := Nat.pow_le_pow_right (by decide) hf.width
    have hp := parseEntry_spec (V := V) h1 (by omega) (by omega)
    have ih' := fun el => ih (fun x hx => he x (by simp [hx])) l' el
    rw [List.length_cons, fillBi, g]
    simp only [Option.getD_some, hp, res_bind_ok, decr_eq b1 b2 hf.width, decr_eq b3 b4 hf.width]
    simp only [undirectedEdges, List.map_cons, BiEdgeList.pushAll]
    have hval : value V { F with entries := e :: es } e = if F.field = kwPattern then V.one else V.rd e.2.2 := rfl
    rw [hval]
    cases BiEdgeList.pushBack w el (e.1 - 1) (e.2.1 - 1) (if F.field = kwPattern then V.one else V.rd e.2.2) with
    | error x => rfl
    | ok el1 =>
      rw [res_bind_ok, res_bind_ok]
      simp only [hs, Bool.false_and, Bool.false_eq_true, if_false, res_pure, res_bind_ok]
      rw [← hs]
      exact ih' el1

/-! ## Reading -/

/-- C82 (partial). Reading a file that is not square and not symmetric into a bipartite list gives exactly the listed entries, with zero-based ids, as edges between row vertices and column vertices;
each part has the declared number of vertices, or more if an entry lies outside.  Missing: square files, which are rejected (`read_bi_square_rejected`). -/
theorem read_bi_partial (V : Val α) (text : List Char) (F : MMFile) (hd : Describes text F) (hf : Fits w F) (hcols : F.cols < 2 ^ w) (hsq : F.rows ≠ F.cols)
    (hs : F.symmetric = false) :
    ∃ el, readBi V w text = .ok el ∧ el.elems = .ok (undirectedEdges V F) ∧ el.isOpen = false ∧
      el.numVertices 0 = partSize F.rows (F.entries.map fun e => e.1 - 1) ∧ el.numVertices 1 = partSize F.cols (F.entries.map fun e => e.2.1 - 1) := by
  obtain ⟨rest, lines, h1, h2, h3⟩ := readPrelude_spec hd hf
  obtain ⟨el, p1, p2, _⟩ := BiCsr.pushAll_is w F.rows F.cols (undirectedEdges V F) hf.rows hcols (undirectedEdges_fit hf)
  have hrun := fillBi_run (V := V) hf hs (fun _ h => h) h3 h2 (BiEdgeList.new F.rows F.cols).openForPushBack
  have hnew : (BiEdgeList.new F.rows F.cols : BiEdgeList α).openForPushBack = BiEdgeList.new F.rows F.cols := rfl
  rw [hnew, p1] at hrun
  have hc : BiCsr.Is el.closeForPushBack F.rows F.cols (undirectedEdges V F) := ⟨p2.col0, p2.col1, p2.attrs, p2.card0, p2.card1⟩
  refine ⟨el.closeForPushBack, ?_, bi_elems hc, rfl, ?_, ?_⟩
  · unfold readBi
    rw [h1, res_bind_ok]
    simp only
    rw [if_pos hsq, hs]
    simp only [Bool.false_eq_true, if_false]
    unfold mmFillBi
    rw [hnew, ← hs, hrun]
    rfl
  · show el.card0 = _
    rw [p2.card0, undirectedEdges, List.map_map]; rfl
  · show el.card1 = _
    rw [p2.card1, undirectedEdges, List.map_map]; rfl

/-- C82 fails for bipartite graphs whose parts are equally large: every square file ends the program. -/
theorem read_bi_square_rejected (V : Val α) (text : List Char) (F : MMFile) (hd : Describes text F) (hf : Fits w F) (hsq : F.rows = F.cols) :
    readBi V w text = .error .terminated := by
  obtain ⟨rest, lines, h1, _⟩ := readPrelude_spec hd hf
  unfold readBi
  rw [h1, res_bind_ok]
  simp only
  rw [if_neg (by simp [hsq])]

/-- Symmetric files are rejected, whatever their size. -/
theorem read_bi_symmetric_rejected (V : Val α) (text : List Char) (F : MMFile) (hd : Describes text F) (hf : Fits w F) (hs : F.symmetric = true) :
    readBi V w text = .error .terminated := by
  obtain ⟨rest, lines, h1, _⟩ := readPrelude_spec hd hf
  unfold readBi
  rw [h1, res_bind_ok]
  simp only [hs, if_true]
  split <;> rfl

/-! ## Writing -/

theorem partSize_of_lt {n : Nat} {ids : List Nat} (h : ∀ i ∈ ids, i < n) : partSize n ids = n := by
  induction ids with
  | nil => rfl
  | cons i ids ih =>
    have := h i (by simp)
    show partSize (max n (i + 1)) ids = n
    rw [show max n (i + 1) = n by omega]
    exact ih fun x hx => h x (by simp [hx])

/-- C82, writing (partial). Writing a `biadjacency<0>` that can be iterated gives a file that lists its edges, in row order, with one-based coordinates, and whose dimensions are the sizes of the two parts.
Not covered: an adjacency constructed from an edge list alone (`write_bi_fails`) and `biadjacency<1>` (`write_bi1_zero_based`). -/
theorem write_bi_partial (V : Val α) (g : BiCsr α) (rows : List (List (Nat × α))) (hg : g.csr.outer = .ok rows) (hN : g.csr.N = g.numVertices 0)
    (h0 : g.numVertices 0 < 2 ^ w) (h1 : g.numVertices 1 < 2 ^ w) (hids : ∀ r ∈ rows, ∀ e ∈ r, e.1 < g.numVertices 1)
    (weighted : Bool) (wType : List Char) (ht : GoodType weighted wType) (hV : Faithful V weighted) :
    ∃ text, writeBi V w weighted 0 wType g kwGeneral = .ok text ∧
      Describes text ⟨wType, false, g.numVertices 0, g.numVertices 1, (rowEdges rows).map fun e => (e.1 + 1, e.2.1 + 1, if weighted then V.wr e.2.2 else [])⟩ := by
  obtain ⟨t1, t2⟩ := ht.word
  have hrl : rows.length = g.numVertices 0 := by
    have := mapM_length hg
    rw [List.length_range] at this; omega
  have hfit : ∀ e ∈ rowEdges rows, e.1 + 1 < 2 ^ w ∧ e.2.1 + 1 < 2 ^ w := by
    intro e he
    obtain ⟨p1, r, hr, p2⟩ := rowEdges_src he
    have := hids r hr _ p2
    simp only at this
    omega
  have hd := describes_of_text_rect (w := w) hV false wType (g.numVertices 0) (g.numVertices 1) _ (rowEdges rows) (rowEdges_length rows).symm t1 t2 hfit
  refine ⟨_, ?_, hd⟩
  unfold writeBi
  simp only [hg, res_bind_ok, res_pure]
  have hbody : (rows.zipIdx.flatMap fun r => r.1.flatMap fun e => biText V w weighted 0 r.2 e) =
      (rowEdges rows).flatMap fun e => entryText V w weighted e.1 e.2.1 e.2.2 := by
    unfold rowEdges
    rw [List.flatMap_assoc]
    apply List.flatMap_congr
    rintro ⟨r, u⟩ hr
    rw [List.flatMap_map]
    apply List.flatMap_congr
    intro e he
    have := hfit (u, e.1, e.2) (List.mem_flatMap.2 ⟨(r, u), hr, List.mem_map.2 ⟨e, he, rfl⟩⟩)
    simp only [biText, entryText, Nat.sub_zero]
    rw [Nat.mod_eq_of_lt (a := u + 1) this.1]
  rw [hbody]
  rfl

/-- C82, round trip (partial: parts of different sizes). Reading back the file written for a `biadjacency<0>` gives its edges, in row order, and the sizes of the two parts. -/
theorem write_read_bi_partial (V : Val α) (g : BiCsr α) (rows : List (List (Nat × α))) (hw : w ≤ 64) (hg : g.csr.outer = .ok rows) (hN : g.csr.N = g.numVertices 0)
    (h0 : g.numVertices 0 < 2 ^ w) (h1 : g.numVertices 1 < 2 ^ w) (hids : ∀ r ∈ rows, ∀ e ∈ r, e.1 < g.numVertices 1) (hlen : (rowEdges rows).length < 2 ^ 64)
    (weighted : Bool) (wType : List Char) (ht : GoodType weighted wType) (hV : Faithful V weighted) (hsq : g.numVertices 0 ≠ g.numVertices 1) :
    ∃ text el, writeBi V w weighted 0 wType g kwGeneral = .ok text ∧ readBi V w text = .ok el ∧ el.elems = .ok (rowEdges rows) ∧
      el.numVertices 0 = g.numVertices 0 ∧ el.numVertices 1 = g.numVertices 1 := by
  obtain ⟨text, e1, e2⟩ := write_bi_partial V g rows hg hN h0 h1 hids weighted wType ht hV
  have w64 : 2 ^ w ≤ 2 ^ 64 := Nat.pow_le_pow_right (by decide) hw
  have hrl : rows.length = g.numVertices 0 := by
    have := mapM_length hg
    rw [List.length_range] at this; omega
  have hlt : ∀ e ∈ rowEdges rows, e.1 < g.numVertices 0 ∧ e.2.1 < g.numVertices 1 := by
    intro e he
    obtain ⟨p1, r, hr, p2⟩ := rowEdges_src he
    exact ⟨by omega, hids r hr _ p2⟩
  obtain ⟨el, f1, f2, _, f4, f5⟩ := read_bi_partial (w := w) V text _ e2 ⟨hw, h0, Nat.lt_of_lt_of_le h1 w64, by simpa using hlen, by
    intro x hx
    obtain ⟨e, he, rfl⟩ := List.mem_map.1 hx
    have := hlt e he
    simp only
    omega⟩ h1 hsq rfl
  have hu := written_undirected hV ht.word.2 false (g.numVertices 0) (rowEdges rows)
  refine ⟨text, el, e1, f1, ?_, ?_, ?_⟩
  · rw [f2]; exact congrArg _ hu
  · rw [f4]
    apply partSize_of_lt
    intro i hi
    simp only [List.mem_map, List.map_map, Function.comp] at hi
    obtain ⟨e, he, rfl⟩ := hi
    exact (hlt e he).1
  · rw [f5]
    apply partSize_of_lt
    intro i hi
    simp only [List.mem_map, List.map_map, Function.comp] at hi
    obtain ⟨e, he, rfl⟩ := hi
    exact (hlt e he).2

/-- The round trip fails if the parts are equally large: the file just written is rejected. -/
theorem write_read_bi_square (V : Val α) (g : BiCsr α) (rows : List (List (Nat × α))) (hw : w ≤ 64) (hg : g.csr.outer = .ok rows) (hN : g.csr.N = g.numVertices 0)
    (h0 : g.numVertices 0 < 2 ^ w) (h1 : g.numVertices 1 < 2 ^ w) (hids : ∀ r ∈ rows, ∀ e ∈ r, e.1 < g.numVertices 1) (hlen : (rowEdges rows).length < 2 ^ 64)
    (weighted : Bool) (wType : List Char) (ht : GoodType weighted wType) (hV : Faithful V weighted) (hsq : g.numVertices 0 = g.numVertices 1) :
    ∃ text, writeBi V w weighted 0 wType g kwGeneral = .ok text ∧ readBi V w text = .error .terminated := by
  obtain ⟨text, e1, e2⟩ := write_bi_partial V g rows hg hN h0 h1 hids weighted wType ht hV
  have w64 : 2 ^ w ≤ 2 ^ 64 := Nat.pow_le_pow_right (by decide) hw
  have hrl : rows.length = g.numVertices 0 := by
    have := mapM_length hg
    rw [List.length_range] at this; omega
  refine ⟨text, e1, read_bi_square_rejected (w := w) V text _ e2 ⟨hw, h0, Nat.lt_of_lt_of_le h1 w64, by simpa using hlen, ?_⟩ hsq⟩
  intro x hx
  obtain ⟨e, he, rfl⟩ := List.mem_map.1 hx
  obtain ⟨p1, r, hr, p2⟩ := rowEdges_src he
  have := hids r hr _ p2
  simp only at this ⊢
  omega

/-- Writing fails for every `biadjacency` constructed from an edge list: it reads the offsets out of bounds. -/
theorem write_bi_fails [Inhabited α] (V : Val α) (o : Csr.Oracles α) (ho : o.Ok) (m n : Nat) (es : List (Nat × Nat × α)) (hm : m < 2 ^ w) (hn : n < 2 ^ w)
    (hfit : ∀ x ∈ es, x.1 + 1 < 2 ^ w ∧ x.2.1 + 1 < 2 ^ w) (idx : Nat) (hidx : idx < 2) (weighted : Bool) (wType fs : List Char) :
    ∃ el g, BiEdgeList.pushAll w (BiEdgeList.new m n) es = .ok el ∧ BiCsr.ofEdgeList o true idx false el = .ok g ∧
      writeBi V w weighted idx wType g fs = .error .outOfBounds := by
  obtain ⟨el, g, h1, h2, h3⟩ := BiCsr.biadjacency_outer_reads_past_end o ho w m n es hm hn hfit idx hidx
  exact ⟨el, g, h1, h2, by unfold writeBi; rw [h3]; rfl⟩

/-- Writing a `biadjacency<1>` gives zero-based ids, so an edge at vertex 0 comes back at the largest id. -/
theorem write_bi1_zero_based :
    (writeBi noVal 32 false 1 kwPattern (BiCsr.ofVectors 3 [0, 1, 1] [1] [()]) kwGeneral >>= fun text => readBi noVal 32 text >>= BiEdgeList.elems) =
      .ok [(2 ^ 32 - 1, 0, ())] ∧ (BiCsr.ofVectors 3 [0, 1, 1] [1] [()]).csr.outer = .ok [[(1, ())], []] := by
  decide +kernel

/-! ## Non-vacuity -/

/-- A file of a bipartite graph with two row vertices and three column vertices. -/
example : Describes "%%MatrixMarket matrix coordinate integer general\n% part\n2 3 2\n1 3 7\n2 1 9\n".toList
      ⟨"integer".toList, false, 2, 3, [(1, 3, "7".toList), (2, 1, "9".toList)]⟩ ∧
    Fits 32 ⟨"integer".toList, false, 2, 3, [(1, 3, "7".toList), (2, 1, "9".toList)]⟩ := by
  refine ⟨⟨"%%MatrixMarket matrix coordinate integer general".toList, ["% part".toList], "2 3 2".toList, ["1 3 7".toList, "2 1 9".toList], ?_, ?_, ?_, ?_, ?_⟩, ?_⟩
  · exact .cons (l := "%%MatrixMarket matrix coordinate integer general".toList) (by decide) (.cons (l := "% part".toList) (by decide)
      (.cons (l := "2 3 2".toList) (by decide) (.cons (l := "1 3 7".toList) (by decide) (.cons (l := "2 1 9".toList) (by decide) (.nil _)))))
  · exact ⟨"matrix".toList, "coordinate".toList, by decide⟩
  · decide
  · exact ⟨"2".toList, "3".toList, "2".toList, by decide, ⟨by decide, by decide, rfl⟩, ⟨by decide, by decide, rfl⟩, ⟨by decide, by decide, rfl⟩⟩
  · refine .cons ⟨"1".toList, "3".toList, ⟨by decide, by decide, rfl⟩, ⟨by decide, by decide, rfl⟩, .inr ⟨by decide, by decide⟩⟩
      (.cons ⟨"2".toList, "1".toList, ⟨by decide, by decide, rfl⟩, ⟨by decide, by decide, rfl⟩, .inr ⟨by decide, by decide⟩⟩ .nil)
  · exact ⟨by decide, by decide, by decide, by decide, by decide⟩

/-- A structure that meets the hypotheses of the round trip. -/
example : (BiCsr.ofVectors 3 [0, 1, 2] [2, 0] [(), ()]).csr.outer = .ok [[(2, ())], [(0, ())]] ∧
    (BiCsr.ofVectors 3 [0, 1, 2] [2, 0] [(), ()]).csr.N = (BiCsr.ofVectors 3 [0, 1, 2] [2, 0] [(), ()]).numVertices 0 ∧ Faithful noVal false ∧
    (writeBi noVal 32 false 0 kwPattern (BiCsr.ofVectors 3 [0, 1, 2] [2, 0] [(), ()]) kwGeneral >>= fun text => readBi noVal 32 text >>= BiEdgeList.elems) =
      .ok [(0, 2, ()), (1, 0, ())] := by
  refine ⟨by decide, rfl, noVal_faithful, by decide +kernel⟩

end NW.MM
