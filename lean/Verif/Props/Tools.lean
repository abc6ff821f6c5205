import Verif.Model.Tools
import Verif.Props.Bench
import Verif.Props.CcBench
import Verif.Props.PrBench

/-!
# C118: converting a graph file; C119: checking a file of sources
-/

namespace NW.Tools
open Spec MM Bench

variable {α : Type}

/-! ## The edge lists that are read -/

theorem pushBack_wf {w : Nat} {el el' : EdgeList α} {i j : Nat} {a : α} (h : el.Wf) (he : el.pushBack w i j a = .ok el') : el'.Wf :=
  (EdgeList.exec_ok (op := .pushBack i j a) h he).1

theorem fillDirected_wf {V : Val α} {w : Nat} {sym pat : Bool} {n : Nat} {cs : List Char} {el el' : EdgeList α} (h : el.Wf)
    (he : fillDirected V w sym pat n cs el = .ok el') : el'.Wf := by
  induction n generalizing cs el with
  | zero => cases he; exact h
  | succ n ih =>
    simp only [fillDirected] at he
    cases h1 : parseEntry V pat ((getline cs).getD ([], [])).1 with
    | error f => rw [h1] at he; cases he
    | ok e =>
      rw [h1, res_bind_ok] at he
      cases h2 : el.pushBack w (decr e.1) (decr e.2.1) e.2.2 with
      | error f => rw [h2] at he; cases he
      | ok el1 =>
        rw [h2, res_bind_ok] at he
        have w1 := pushBack_wf h h2
        split at he
        · cases h3 : el1.pushBack w (decr e.2.1) (decr e.1) e.2.2 with
          | error f => rw [h3] at he; cases he
          | ok el2 =>
            rw [h3, res_bind_ok] at he
            exact ih (pushBack_wf w1 h3) he
        · exact ih w1 he

theorem fillUndirected_wf {V : Val α} {w : Nat} {pat : Bool} {n : Nat} {cs : List Char} {el el' : EdgeList α} (h : el.Wf)
    (he : fillUndirected V w pat n cs el = .ok el') : el'.Wf := by
  induction n generalizing cs el with
  | zero => cases he; exact h
  | succ n ih =>
    simp only [fillUndirected] at he
    cases h1 : parseEntry V pat ((getline cs).getD ([], [])).1 with
    | error f => rw [h1] at he; cases he
    | ok e =>
      rw [h1, res_bind_ok] at he
      cases h2 : el.pushBack w (decr e.1) (decr e.2.1) e.2.2 with
      | error f => rw [h2] at he; cases he
      | ok el1 =>
        rw [h2, res_bind_ok] at he
        exact ih (pushBack_wf h h2) he

theorem fillPlain_wf {w : Nat} {pat : Bool} {n : Nat} {s : In} {el el' : EdgeList Unit} (h : el.Wf)
    (he : fillPlain w pat n s el = .ok el') : el'.Wf := by
  induction n generalizing s el with
  | zero => cases he; exact h
  | succ n ih =>
    simp only [fillPlain] at he
    cases h1 : assigned (readSize s).1 with
    | error f => rw [h1] at he; cases he
    | ok d0 =>
      rw [h1, res_bind_ok] at he
      cases h3 : assigned (readSize (readSize s).2).1 with
      | error f => rw [h3] at he; cases he
      | ok d1 =>
        rw [h3, res_bind_ok] at he
        cases h2 : el.pushBack w (decr d0) (decr d1) () with
        | error f => rw [h2] at he; cases he
        | ok el1 =>
          rw [h2, res_bind_ok] at he
          exact ih (pushBack_wf h h2) he

/-- The closed edge list with the given edges, for a file that declares `n` rows. -/
def listOf (n : Nat) (es : List (Nat × Nat × α)) : EdgeList α :=
  ⟨EdgeList.impliedSize n es, false, es.map (·.1), es.map (·.2.1), es.map (·.2.2)⟩

theorem listOf_wf (n : Nat) (es : List (Nat × Nat × α)) : (listOf n es).Wf := by simp [listOf, EdgeList.Wf]

theorem listOf_contents (n : Nat) (es : List (Nat × Nat × α)) : (listOf n es).contents = es := by
  unfold listOf EdgeList.contents
  induction es with
  | nil => rfl
  | cons e es ih => simpa using ih

theorem eq_listOf {el : EdgeList α} {n : Nat} {es : List (Nat × Nat × α)} (hw : el.Wf) (he : el.elems = .ok es) (hc : el.numVertices = EdgeList.impliedSize n es)
    (ho : el.isOpen = false) : el = listOf n es := by
  rw [EdgeList.elems_of_wf hw] at he
  have he : el.contents = es := Except.ok.inj he
  obtain ⟨card, op, c0, c1, as⟩ := el
  obtain ⟨w1, w2⟩ := hw
  simp only [EdgeList.contents, EdgeList.numVertices] at he hc ho w1 w2
  subst he hc ho
  unfold listOf
  have e0 : (c0.zip (c1.zip as)).map (·.1) = c0 := List.map_fst_zip (by simp; omega)
  have e1 : (c0.zip (c1.zip as)).map (·.2) = c1.zip as := List.map_snd_zip (by simp; omega)
  have e2 : (c1.zip as).map (·.1) = c1 := List.map_fst_zip (by omega)
  have e3 : (c1.zip as).map (·.2) = as := List.map_snd_zip (by omega)
  have f1 : (c0.zip (c1.zip as)).map (fun x => x.2.1) = c1 := by
    have := congrArg (List.map Prod.fst) e1
    rw [List.map_map] at this
    exact this.trans e2
  have f2 : (c0.zip (c1.zip as)).map (fun x => x.2.2) = as := by
    have := congrArg (List.map Prod.snd) e1
    rw [List.map_map] at this
    exact this.trans e3
  rw [e0, f1, f2]

variable {w : Nat} {text : List Char} {F : MMFile}

theorem bind_close {f : Res (EdgeList α)} {el : EdgeList α} (h : (f >>= fun el => pure el.closeForPushBack) = .ok el) :
    ∃ el1, f = .ok el1 ∧ el = el1.closeForPushBack := by
  cases hf : f with
  | error e => rw [hf] at h; cases h
  | ok el1 => rw [hf] at h; cases h; exact ⟨el1, rfl, rfl⟩

theorem readDirected_list (V : Val α) (hd : Describes text F) (hf : Fits w F) : readDirected V w text = .ok (listOf F.rows (directedEdges V F)) := by
  obtain ⟨el, h1, h2, -, h4, h5⟩ := read_mm_directed V text F hd hf
  have hw : el.Wf := by
    unfold readDirected at h1
    cases hp : readPrelude text with
    | error e => rw [hp] at h1; cases h1
    | ok p =>
      rw [hp, res_bind_ok] at h1
      obtain ⟨el1, g1, rfl⟩ := bind_close h1
      exact fillDirected_wf (el' := el1) ⟨rfl, rfl⟩ g1
  rw [h1, eq_listOf hw h2 h4 h5]

theorem readUndirected_list (V : Val α) (hd : Describes text F) (hf : Fits w F) : readUndirected V w text = .ok (listOf F.rows (undirectedEdges V F)) := by
  obtain ⟨el, h1, h2, -, h4, h5⟩ := read_mm_undirected V text F hd hf
  have hw : el.Wf := by
    unfold readUndirected at h1
    cases hp : readPrelude text with
    | error e => rw [hp] at h1; cases h1
    | ok p =>
      rw [hp, res_bind_ok] at h1
      obtain ⟨el1, g1, rfl⟩ := bind_close h1
      exact fillUndirected_wf (el' := el1) ⟨rfl, rfl⟩ g1
  rw [h1, eq_listOf hw h2 h4 h5]

theorem readPlain_list (hd : Describes text F) (hf : Fits w F) : readPlain w text = .ok (listOf F.rows (undirectedEdges noVal F)) := by
  obtain ⟨el, h1, h2, -, h4, h5⟩ := read_mm_undirected_plain text F hd hf
  have hw : el.Wf := by
    unfold readPlain at h1
    cases hp : readPrelude text with
    | error e => rw [hp] at h1; cases h1
    | ok p =>
      rw [hp, res_bind_ok] at h1
      obtain ⟨el1, g1, rfl⟩ := bind_close h1
      exact fillPlain_wf (el' := el1) ⟨rfl, rfl⟩ g1
  rw [h1, eq_listOf hw h2 h4 h5]

/-! ## Leaving out the attributes -/

theorem listOf_image (k n : Nat) (es : List (Nat × Nat × α)) (us : List (Nat × Nat × Unit)) (h : us = es.map fun e => (e.1, e.2.1, ())) :
    Bin.imageOf k [] (listOf n us) = Bin.imageOf k [] (listOf n es) := by
  subst h
  simp only [Bin.imageOf, listOf, List.map_map, EdgeList.impliedSize, List.foldl_map, List.map_nil]
  rfl

theorem directed_plain (V : Val α) (F : MMFile) : directedEdges noVal F = (directedEdges V F).map fun e => (e.1, e.2.1, ()) := by
  unfold directedEdges
  rw [List.map_flatMap]
  congr 1
  funext e
  split <;> simp

theorem undirected_plain (V : Val α) (F : MMFile) : undirectedEdges noVal F = (undirectedEdges V F).map fun e => (e.1, e.2.1, ()) := by
  unfold undirectedEdges
  rw [List.map_map]
  rfl

/-- Reading fewer columns than were written gives the first ones. -/
theorem readSoa_write_prefix {cols extra ts : List Bin.Col} {n : Nat} (hne : cols ≠ []) (hlen : (cols ++ extra).length < 2 ^ 64)
    (h : ∀ c ∈ cols, c.Good n) (he : ts.map (·.elSize) = cols.map (·.elSize)) :
    Bin.readSoa ts (Bin.writeSoa (cols ++ extra)) = .ok (cols, extra.flatMap Bin.writeCol) := by
  cases hc : cols with
  | nil => exact absurd hc hne
  | cons c cs =>
    have hg := h c (by simp [hc])
    have h1 : n < 256 ^ 8 := hg.n_lt
    have h2 : (c :: cs ++ extra).length < 256 ^ 8 := by rw [← hc]; exact hlen
    have e : Bin.writeSoa (c :: cs ++ extra) = Bin.le 8 n ++ (Bin.le 8 (c :: cs ++ extra).length ++ ((c :: cs).flatMap Bin.writeCol ++ extra.flatMap Bin.writeCol)) := by
      unfold Bin.writeSoa
      rw [List.flatMap_append, List.append_assoc]
      simp only [List.cons_append, List.head?_cons, Option.map_some, Option.getD_some, hg.size]
    rw [e, Bin.readSoa, Bin.readInt_append h1, res_bind_ok]
    dsimp only
    rw [Bin.readInt_append h2, res_bind_ok]
    exact Bin.readCols_write (hc ▸ h) (hc ▸ he)

/-- Reading a binary edge list without its attributes. -/
theorem read_without_attributes {k d : Nat} {fs : List (Bin.Field α)} {el : EdgeList α} {t : EdgeList Unit} (hd : d < 2 ^ 32) (hnum : fs.length + 2 < 2 ^ 64) (hel : Bin.InMemory k fs el) :
    ∃ rest, Bin.readEdgeList (Bin.imageOf k [] t) (Bin.writeEdgeList d (Bin.imageOf k fs el)) = .ok (Bin.imageOf k [] el.closeForPushBack, rest) := by
  have h4 : d < 256 ^ 4 := hd
  have hc : ∀ n ∈ [el.card], n < 2 ^ 64 := by simp [hel.card]
  have hs := readSoa_write_prefix (cols := [Bin.Col.ofNats k el.col0, Bin.Col.ofNats k el.col1]) (extra := fs.map fun f => Bin.Col.ofField f el.attrs)
    (ts := [Bin.Col.ofNats k t.col0, Bin.Col.ofNats k t.col1]) (n := el.size) (by simp) (by simp only [List.length_append, List.length_cons, List.length_nil, List.length_map]; omega) (by
      intro c hc
      simp only [List.mem_cons, List.not_mem_nil, or_false] at hc
      rcases hc with rfl | rfl
      · exact Bin.goodNats hel.kpos hel.kfit rfl hel.fits
      · exact Bin.goodNats hel.kpos hel.kfit hel.wf.1 hel.fits) rfl
  refine ⟨(fs.map fun f => Bin.Col.ofField f el.attrs).flatMap Bin.writeCol, ?_⟩
  simp only [Bin.readEdgeList, Bin.writeEdgeList, List.append_assoc, Bin.readN_append Bin.edgeListMagic_length, res_bind_ok, Bin.readInt_append h4, Bin.imageOf,
    List.length_cons, List.length_nil, List.map_nil]
  have hb := Bin.readBase_write (o := el.isOpen) (r := Bin.writeSoa (Bin.Col.ofNats k el.col0 :: Bin.Col.ofNats k el.col1 :: fs.map fun f => Bin.Col.ofField f el.attrs)) hc
  simp only [List.length_cons, List.length_nil] at hb
  rw [hb, res_bind_ok]
  simp only [List.cons_append, List.nil_append] at hs
  rw [hs]
  rfl

theorem firstWord_binary (d : Nat) (m : Bin.EdgeListMem) : firstWord (chars (Bin.writeEdgeList d m)) = "NW".toList := by
  have : ∃ rest, chars (Bin.writeEdgeList d m) = 'N' :: 'W' :: ' ' :: rest := by
    unfold Bin.writeEdgeList
    rw [List.append_assoc, List.append_assoc]
    generalize Bin.le 4 d ++ _ = x
    exact ⟨("Graph index_edge_list".toList ++ [Char.ofNat 0, Char.ofNat 0, Char.ofNat 0]) ++ chars x, by
      unfold chars
      rw [List.map_append]
      rfl⟩
  obtain ⟨rest, e⟩ := this
  rw [e]
  rfl

theorem load_without_attributes {k d : Nat} {fs : List (Bin.Field α)} {el : EdgeList α} (mm : List Char → Res (EdgeList Unit)) (hd : d < 2 ^ 32) (hnum : fs.length + 2 < 2 ^ 64)
    (hel : Bin.InMemory k fs el) : loadGraph k [] mm (Bin.writeEdgeList d (Bin.imageOf k fs el)) = .ok (Bin.imageOf k [] el.closeForPushBack) := by
  obtain ⟨rest, h⟩ := read_without_attributes (t := EdgeList.new 0) hd hnum hel
  unfold loadGraph
  rw [if_pos (firstWord_binary d _), h]
  rfl

/-- The list fits into the memory: ids of `k` bytes, attributes of the size `f.size`. -/
structure Storable (w k : Nat) (f : Bin.Field α) (es : List (Nat × Nat × α)) : Prop where
  kpos : 0 < k
  kfit : k < 2 ^ 64
  wide : 2 ^ w ≤ 256 ^ k
  narrow : w ≤ 64
  attr : 0 < f.size ∧ f.size < 2 ^ 64 ∧ ∀ a, (f.enc a).length = f.size
  ids : es.length * k < 2 ^ 64
  vals : es.length * f.size < 2 ^ 64

theorem impliedSize_le {n m : Nat} {es : List (Nat × Nat × α)} (hn : n ≤ m) (h : ∀ x ∈ es, x.1 + 1 ≤ m ∧ x.2.1 + 1 ≤ m) : EdgeList.impliedSize n es ≤ m := by
  unfold EdgeList.impliedSize
  induction es generalizing n with
  | nil => exact hn
  | cons e es ih =>
    have := h e (by simp)
    exact ih (Nat.max_le.2 ⟨hn, Nat.max_le.2 this⟩) fun x hx => h x (by simp [hx])

theorem inMemory_listOf {w k n : Nat} {f : Bin.Field α} {es : List (Nat × Nat × α)} (h : Storable w k f es) (hn : n < 2 ^ w)
    (hes : ∀ x ∈ es, x.1 + 1 < 2 ^ w ∧ x.2.1 + 1 < 2 ^ w) : Bin.InMemory k [f] (listOf n es) := by
  have hc : (listOf n es).card < 2 ^ w := by
    have hp : 0 < 2 ^ w := Nat.pos_of_ne_zero (by simp)
    have : EdgeList.impliedSize n es ≤ 2 ^ w - 1 := impliedSize_le (by omega) fun x hx => by have := hes x hx; omega
    show EdgeList.impliedSize n es < _
    omega
  have hp : 2 ^ w ≤ 2 ^ 64 := Nat.pow_le_pow_right (by decide) h.narrow
  refine ⟨listOf_wf n es, h.kpos, h.kfit, by omega, ?_, ?_, ?_, ?_⟩
  · intro x hx
    obtain ⟨e, he, rfl⟩ := List.mem_map.1 hx
    have := hes e he; have := h.wide; omega
  · intro x hx
    obtain ⟨e, he, rfl⟩ := List.mem_map.1 hx
    have := hes e he; have := h.wide; omega
  · simpa [listOf, EdgeList.size] using h.ids
  · intro g hg
    rw [List.mem_singleton] at hg
    subst hg
    simpa [listOf, EdgeList.size] using h.vals

/-- The list read from a file is one the theorems on the benchmarks speak of. -/
theorem loaded_listOf {n : Nat} {es : List (Nat × Nat × Unit)} (hn : n < 2 ^ 32) (hes : ∀ x ∈ es, x.1 + 1 < 2 ^ 32 ∧ x.2.1 + 1 < 2 ^ 32) : CcBench.Loaded (listOf n es) := by
  refine ⟨listOf_wf n es, ?_, ?_⟩
  · rw [listOf_contents]
    exact EdgeList.impliedSize_gt n es
  · exact impliedSize_le (by omega) fun x hx => by have := hes x hx; omega

/-! ## C118 -/

variable {bytes : List UInt8} {k : Nat} {f : Bin.Field α} {V : Val α}

/-- C118. `process_edge_list -d`: loading the file that it writes gives the same as loading the Matrix Market file, without attributes (as most benchmarks do) and with the attribute;
what is loaded has exactly the edges of the file. -/
theorem converted_directed (hd : Describes (chars bytes) F) (hf : Fits w F) (hs : Storable w k f (directedEdges V F)) :
    ∃ out, convert V w k f true (chars bytes) = .ok out ∧
      (∀ mm : List Char → Res (EdgeList Unit), loadGraph k [] mm out = loadGraph k [] (readDirected noVal w) bytes) ∧
      (∀ mm, loadGraph k [f] mm out = loadGraph k [f] (readDirected V w) bytes) ∧
      (∃ el, loadGraph k [] (readDirected noVal w) bytes = .ok (Bin.imageOf k [] el) ∧ el.elems = .ok (directedEdges noVal F)) ∧
      ∃ el, loadGraph k [f] (readDirected V w) bytes = .ok (Bin.imageOf k [f] el) ∧ el.elems = .ok (directedEdges V F) := by
  have hm := inMemory_listOf hs hf.rows (directedEdges_fit (V := V) hf)
  have t0 := load_graph_text k [] (readDirected noVal w) hd (readDirected_list noVal hd hf)
  have t1 := load_graph_text k [f] (readDirected V w) hd (readDirected_list V hd hf)
  refine ⟨_, by unfold convert; rw [if_pos rfl, readDirected_list V hd hf]; rfl, fun mm => ?_, fun mm => ?_, ⟨_, t0, ?_⟩, ⟨_, t1, ?_⟩⟩
  · rw [load_without_attributes mm (by decide) (by simp) hm, t0, listOf_image k F.rows _ _ (directed_plain V F)]
    rfl
  · rw [load_graph_binary k _ [f] mm _ (by decide) (by simpa [Bin.FieldsOk] using hs.attr) (by simp) hm, t1]
    rfl
  · rw [EdgeList.elems_of_wf (listOf_wf _ _), listOf_contents]
  · rw [EdgeList.elems_of_wf (listOf_wf _ _), listOf_contents]

/-- C118. `process_edge_list -u`, likewise. -/
theorem converted_undirected (hd : Describes (chars bytes) F) (hf : Fits w F) (hs : Storable w k f (undirectedEdges V F)) :
    ∃ out, convert V w k f false (chars bytes) = .ok out ∧
      (∀ mm : List Char → Res (EdgeList Unit), loadGraph k [] mm out = loadGraph k [] (readPlain w) bytes) ∧
      (∀ mm, loadGraph k [f] mm out = loadGraph k [f] (readUndirected V w) bytes) ∧
      (∃ el, loadGraph k [] (readPlain w) bytes = .ok (Bin.imageOf k [] el) ∧ el.elems = .ok (undirectedEdges noVal F)) ∧
      ∃ el, loadGraph k [f] (readUndirected V w) bytes = .ok (Bin.imageOf k [f] el) ∧ el.elems = .ok (undirectedEdges V F) := by
  have hm := inMemory_listOf hs hf.rows (undirectedEdges_fit (V := V) hf)
  have t0 := load_graph_text k [] (readPlain w) hd (readPlain_list hd hf)
  have t1 := load_graph_text k [f] (readUndirected V w) hd (readUndirected_list V hd hf)
  refine ⟨_, by unfold convert; rw [if_neg (by decide), readUndirected_list V hd hf]; rfl, fun mm => ?_, fun mm => ?_, ⟨_, t0, ?_⟩, ⟨_, t1, ?_⟩⟩
  · rw [load_without_attributes mm (by decide) (by simp) hm, t0, listOf_image k F.rows _ _ (undirected_plain V F)]
    rfl
  · rw [load_graph_binary k _ [f] mm _ (by decide) (by simpa [Bin.FieldsOk] using hs.attr) (by simp) hm, t1]
    rfl
  · rw [EdgeList.elems_of_wf (listOf_wf _ _), listOf_contents]
  · rw [EdgeList.elems_of_wf (listOf_wf _ _), listOf_contents]

/-- C118. The program writes the files it is asked for, and no others. -/
theorem process_edge_list_writes (hd : Describes (chars bytes) F) (hf : Fits w F) (d u : Bool) :
    ∃ a b, convert V w k f true (chars bytes) = .ok a ∧ convert V w k f false (chars bytes) = .ok b ∧
      processEdgeList V w k f d u (chars bytes) = .ok (if d then some a else none, if u then some b else none) := by
  obtain ⟨a, ha⟩ : ∃ a, convert V w k f true (chars bytes) = .ok a := ⟨_, by unfold convert; rw [if_pos rfl, readDirected_list V hd hf]; rfl⟩
  obtain ⟨b, hb⟩ : ∃ b, convert V w k f false (chars bytes) = .ok b := ⟨_, by unfold convert; rw [if_neg (by decide), readUndirected_list V hd hf]; rfl⟩
  refine ⟨_, _, ha, hb, ?_⟩
  unfold processEdgeList
  rw [ha, hb]
  cases d <;> cases u <;> rfl

/-- C118. What the benchmarks load has the form that the theorems on them assume. -/
theorem read_mm_loaded (hd : Describes (chars bytes) F) (hf : Fits 32 F) :
    (∃ el, loadGraph 4 [] (readDirected noVal 32) bytes = .ok (Bin.imageOf 4 [] el) ∧ CcBench.Loaded el ∧ el.contents = directedEdges noVal F) ∧
    ∃ el, loadGraph 4 [] (readPlain 32) bytes = .ok (Bin.imageOf 4 [] el) ∧ CcBench.Loaded el ∧ el.contents = undirectedEdges noVal F :=
  ⟨⟨_, load_graph_text 4 [] _ hd (readDirected_list noVal hd hf), loaded_listOf hf.rows (directedEdges_fit hf), listOf_contents _ _⟩,
    ⟨_, load_graph_text 4 [] _ hd (readPlain_list hd hf), loaded_listOf hf.rows (undirectedEdges_fit hf), listOf_contents _ _⟩⟩

theorem length_lt_of_offDiagonal (hsym : F.symmetric = true) (hoff : ∃ e ∈ F.entries, e.1 ≠ e.2.1) : (undirectedEdges V F).length < (directedEdges V F).length := by
  unfold undirectedEdges directedEdges
  rw [List.length_map, List.length_flatMap]
  obtain ⟨e, he, hne⟩ := hoff
  obtain ⟨as, bs, hab⟩ := List.append_of_mem he
  rw [hab]
  have key : ∀ l : List (Nat × Nat × List Char), l.length ≤ (l.map fun e => ((e.1 - 1, e.2.1 - 1, value V F e) ::
      if F.symmetric = true ∧ e.1 ≠ e.2.1 then [(e.2.1 - 1, e.1 - 1, value V F e)] else []).length).sum := by
    intro l
    induction l with
    | nil => simp
    | cons x l ih => simp only [List.length_cons, List.map_cons, List.sum_cons] at ih ⊢; omega
  have k1 := key as
  have k2 := key bs
  simp only [List.map_append, List.sum_append, List.map_cons, List.sum_cons, List.length_append, List.length_cons, hsym, hne, ne_eq, not_false_eq_true, and_self, if_true,
    List.length_nil] at k1 k2 ⊢
  omega

theorem image_length_ne {β γ : Type} {n m : Nat} {es : List (Nat × Nat × β)} {es' : List (Nat × Nat × γ)} (hk : 0 < k) (h : es.length < es'.length) :
    Bin.imageOf k [] (listOf n es) ≠ Bin.imageOf k [] (listOf m es') := by
  intro h1
  simp only [Bin.imageOf, Bin.EdgeListMem.mk.injEq, List.cons.injEq] at h1
  have h2 := congrArg Bin.Col.mem h1.2.2.1
  have h3 := congrArg List.length h2
  simp only [Bin.Col.ofNats] at h3
  rw [Bin.flatMap_length_const (fun a _ => Bin.le_length k a), Bin.flatMap_length_const (fun a _ => Bin.le_length k a)] at h3
  have := Nat.eq_of_mul_eq_mul_right hk h3
  simp only [listOf, List.length_map] at this
  omega

/-- C118 (disagreement). A file written with the wrong option is accepted, with a warning only: for a symmetric file with an entry off the diagonal, a benchmark of directed graphs
that loads the file written with `-u` does not get the edges of the Matrix Market file, nor does a benchmark of undirected graphs with the file written with `-d`. -/
theorem converted_wrong_direction (hd : Describes (chars bytes) F) (hf : Fits w F) (hs : Storable w k f (directedEdges V F)) (hsym : F.symmetric = true)
    (hoff : ∃ e ∈ F.entries, e.1 ≠ e.2.1) :
    (∃ out m, convert V w k f false (chars bytes) = .ok out ∧ loadGraph k [] (readDirected noVal w) out = .ok m ∧ loadGraph k [] (readDirected noVal w) bytes ≠ .ok m) ∧
    ∃ out m, convert V w k f true (chars bytes) = .ok out ∧ loadGraph k [] (readPlain w) out = .ok m ∧ loadGraph k [] (readPlain w) bytes ≠ .ok m := by
  have hlt := length_lt_of_offDiagonal (V := V) hsym hoff
  have hs' : Storable w k f (undirectedEdges V F) :=
    ⟨hs.kpos, hs.kfit, hs.wide, hs.narrow, hs.attr, Nat.lt_of_le_of_lt (Nat.mul_le_mul_right _ (Nat.le_of_lt hlt)) hs.ids,
      Nat.lt_of_le_of_lt (Nat.mul_le_mul_right _ (Nat.le_of_lt hlt)) hs.vals⟩
  have t0 := load_graph_text k [] (readDirected noVal w) hd (readDirected_list noVal hd hf)
  have t1 := load_graph_text k [] (readPlain w) hd (readPlain_list hd hf)
  obtain ⟨o1, a1, a2, -⟩ := converted_directed hd hf hs
  obtain ⟨o2, b1, b2, -⟩ := converted_undirected hd hf hs'
  have hne : Bin.imageOf k [] (listOf F.rows (undirectedEdges noVal F)) ≠ Bin.imageOf k [] (listOf F.rows (directedEdges noVal F)) :=
    image_length_ne hs.kpos (length_lt_of_offDiagonal hsym hoff)
  refine ⟨⟨o2, _, b1, (b2 _).trans t1, ?_⟩, ⟨o1, _, a1, (a2 _).trans t0, ?_⟩⟩
  · rw [t0]
    exact fun h => hne (Except.ok.inj h).symm
  · rw [t1]
    exact fun h => hne (Except.ok.inj h)

/-- A 4-byte integer attribute. -/
def intField : Bin.Field Nat := ⟨4, fun a => Bin.le 4 a⟩

/-- The hypotheses hold for the example file of C62, which is symmetric and has an entry off the diagonal. -/
example : ∃ bytes, Describes (chars bytes) exFile ∧ Fits 32 exFile ∧ Storable 32 4 intField (directedEdges natVal exFile) ∧ exFile.symmetric = true ∧ ∃ e ∈ exFile.entries, e.1 ≠ e.2.1 := by
  refine ⟨exText.map fun c => UInt8.ofNat c.toNat, ?_, exFile_fits, ⟨by decide, by decide, by decide, by decide, ⟨by decide, by decide, fun a => Bin.le_length 4 a⟩, by decide +kernel, by decide +kernel⟩,
    rfl, by decide +kernel⟩
  have : chars (exText.map fun c => UInt8.ofNat c.toNat) = exText := by decide +kernel
  rw [this]
  exact exText_describes

end NW.Tools
