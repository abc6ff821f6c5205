import Verif.Lemmas.MatrixMarket
import Verif.Props.CsrBuild
import Mathlib.Data.List.Forall2

/-!
# C62, C63, C66, C67: Matrix Market files
-/

namespace NW.MM
open NW.Spec

/-! ## Specification -/

section Spec
variable {α : Type} (V : Val α)

/-- The value of an entry: what is read from its text, or one in a `pattern` file. -/
def value (F : MMFile) (e : Nat × Nat × List Char) : α := if F.field = kwPattern then V.one else V.rd e.2.2

/-- The edges a file denotes when read as an undirected graph: one per entry, with zero-based ids. -/
def undirectedEdges (F : MMFile) : List (Nat × Nat × α) := F.entries.map fun e => (e.1 - 1, e.2.1 - 1, value V F e)

/-- The edges a file denotes when read as a directed graph: one per entry and, in a symmetric file, the mirror image of every off-diagonal entry. -/
def directedEdges (F : MMFile) : List (Nat × Nat × α) :=
  F.entries.flatMap fun e =>
    (e.1 - 1, e.2.1 - 1, value V F e) :: if F.symmetric = true ∧ e.1 ≠ e.2.1 then [(e.2.1 - 1, e.1 - 1, value V F e)] else []

end Spec

/-- The values printed can be read back (`weighted`), or there is only one value. -/
structure Faithful {α : Type} (V : Val α) (weighted : Bool) : Prop where
  word : weighted = true → ∀ a, V.wr a ≠ [] ∧ (∀ c ∈ V.wr a, blank c = false) ∧ V.rd (V.wr a) = a
  unit : weighted = false → ∀ a, a = V.one

/-! ## Helper lemmas -/

variable {α : Type} {V : Val α} {w : Nat}

theorem size_head {size n : List Char} {ts : List (List Char)} {k : Nat} (h : words size = n :: ts) (hn : Numeral n k) : size.head? ≠ some '%' := by
  obtain ⟨pre, rest, h1, h2, h3, _⟩ := words_cons h
  intro hp
  rw [h1] at hp
  cases pre with
  | nil =>
    cases n with
    | nil => exact h3 rfl
    | cons c n =>
      simp only [List.nil_append, List.cons_append, List.head?_cons, Option.some.injEq] at hp
      have := hn.2.1 c (by simp)
      rw [hp] at this
      exact absurd this (by decide)
  | cons c pre =>
    simp only [List.cons_append, List.head?_cons, Option.some.injEq] at hp
    have := h2 c (by simp)
    rw [hp] at this
    exact absurd this (by decide)

theorem readPrelude_spec {text : List Char} {F : MMFile} (hd : Describes text F) (hf : Fits w F) :
    ∃ rest lines, readPrelude text = .ok ⟨F.symmetric, decide (F.field = kwPattern), F.rows, F.cols, F.entries.length, rest⟩ ∧
      HasLines lines rest ∧ List.Forall₂ (EntryLine (F.field = kwPattern)) F.entries lines := by
  obtain ⟨header, comments, size, lines, h1, ⟨x, y, hh⟩, h3, ⟨n, m, k, hs, hn, hm, hk⟩, h5⟩ := hd
  obtain ⟨r1, g1, l1⟩ := HasLines.head h1
  obtain ⟨r2, g2, l2⟩ := skipComments_lines l1 h3 (size_head hs hn)
  have hw := headerWords_words (s := ⟨header, true⟩) rfl hh
  have w64 : 2 ^ w ≤ 2 ^ 64 := Nat.pow_le_pow_right (by decide) hf.width
  obtain ⟨c1, e1, f1⟩ := readSize_words (s := ⟨size, true⟩) rfl hs hn (Nat.lt_of_lt_of_le hf.rows w64)
  obtain ⟨c2, e2, f2⟩ := readSize_words (s := ⟨c1, true⟩) rfl f1 hm hf.cols
  obtain ⟨c3, e3, _⟩ := readSize_words (s := ⟨c2, true⟩) rfl f2 hk hf.count
  refine ⟨r2, lines, ?_, l2, h5⟩
  have hw' : headerWords 5 ⟨header, true⟩ = _ := hw
  unfold readPrelude
  rw [g1]
  simp only [Option.getD_some, hw', g2, e1, e2, e3, assigned, res_bind_ok]
  have k1 : sBanner = kwBanner := rfl
  have k2 : sSymmetric = kwSymmetric := rfl
  have k3 : sGeneral = kwGeneral := rfl
  have k4 : sPattern = kwPattern := rfl
  have k5 : kwGeneral ≠ kwSymmetric := by decide
  rw [k1, k2, k3, k4, if_neg (by simp), if_neg (by cases F.symmetric <;> simp)]
  cases F.symmetric <;> simp [res_pure, k5]

theorem parseEntry_spec {pattern : Prop} [Decidable pattern] {e : Nat × Nat × List Char} {l : List Char} (h : EntryLine pattern e l)
    (h1 : e.1 < 2 ^ 64) (h2 : e.2.1 < 2 ^ 64) :
    parseEntry V (decide pattern) l = .ok (e.1, e.2.1, if pattern then V.one else V.rd e.2.2) := by
  obtain ⟨r, c, hr, hc, hw⟩ := h
  have key : ∃ ts, words l = r :: c :: ts ∧ ((pattern ∧ ts = []) ∨ (¬ pattern ∧ ts = [e.2.2])) := by
    rcases hw with ⟨hp, hw⟩ | ⟨hp, hw⟩
    · exact ⟨_, hw, .inl ⟨hp, rfl⟩⟩
    · exact ⟨_, hw, .inr ⟨hp, rfl⟩⟩
  obtain ⟨ts, hw, hts⟩ := key
  obtain ⟨c1, e1, f1⟩ := readSize_words (s := ⟨l, true⟩) rfl hw hr h1
  obtain ⟨c2, e2, f2⟩ := readSize_words (s := ⟨c1, true⟩) rfl f1 hc h2
  unfold parseEntry
  simp only [e1, e2, assigned, res_bind_ok]
  rcases hts with ⟨hp, _⟩ | ⟨hp, rfl⟩
  · simp [hp, res_pure]
  · obtain ⟨c3, e3, _⟩ := readWord_words (s := ⟨c2, true⟩) rfl f2
    simp [hp, e3, res_pure]

theorem decr_eq {d : Nat} (h1 : 1 ≤ d) (h2 : d < 2 ^ w) (hw : w ≤ 64) : decr d = d - 1 := by
  have w64 : 2 ^ w ≤ 2 ^ 64 := Nat.pow_le_pow_right (by decide) hw
  unfold decr
  rw [show d + 2 ^ 64 - 1 = (d - 1) + 2 ^ 64 by omega, Nat.add_mod_right, Nat.mod_eq_of_lt (by omega)]

/-- The pushes of a list of edges. -/
def pushes (es : List (Nat × Nat × α)) : List (EdgeList.Op α) := es.map fun e => .pushBack e.1 e.2.1 e.2.2

theorem pushed_pushes (es : List (Nat × Nat × α)) : EdgeList.pushed (pushes es) = es := by
  induction es with
  | nil => rfl
  | cons e es ih => rw [pushes, List.map_cons, EdgeList.pushed, ← pushes, ih]

theorem pushesOpen_pushes (es : List (Nat × Nat × α)) (ops : List (EdgeList.Op α)) (h : EdgeList.PushesOpen true ops) :
    EdgeList.PushesOpen true (pushes es ++ ops) := by
  induction es with
  | nil => exact h
  | cons e es ih => exact ⟨rfl, ih⟩

theorem pushed_append (a b : List (EdgeList.Op α)) : EdgeList.pushed (a ++ b) = EdgeList.pushed a ++ EdgeList.pushed b := by
  induction a with
  | nil => rfl
  | cons op a ih => cases op <;> simp [EdgeList.pushed, ih]

theorem run_append (el : EdgeList α) (a b : List (EdgeList.Op α)) : EdgeList.run w el (a ++ b) = EdgeList.run w el a >>= fun el => EdgeList.run w el b := by
  induction a generalizing el with
  | nil => rfl
  | cons op a ih =>
    rw [List.cons_append, EdgeList.run, EdgeList.run]
    cases EdgeList.exec w el op with
    | error e => rfl
    | ok el' => exact ih el'

/-- Filling a new list with edges whose ids fit. -/
theorem fill_result {n : Nat} (hn : n < 2 ^ w) {es : List (Nat × Nat × α)} (hfit : ∀ x ∈ es, x.1 + 1 < 2 ^ w ∧ x.2.1 + 1 < 2 ^ w)
    (f : Res (EdgeList α)) (hf : f = EdgeList.run w (EdgeList.new n).openForPushBack (pushes es)) :
    ∃ el, (f >>= fun el => pure el.closeForPushBack) = .ok el ∧ el.elems = .ok es ∧ el.numVertices = EdgeList.impliedSize n es ∧ el.isOpen = false := by
  let ops : List (EdgeList.Op α) := .openForPushBack :: (pushes es ++ [.closeForPushBack])
  have hp : EdgeList.pushed ops = es := by
    show EdgeList.pushed (pushes es ++ [.closeForPushBack]) = es
    rw [pushed_append, pushed_pushes]; simp [EdgeList.pushed]
  obtain ⟨el, hel⟩ := (EdgeList.edgelist_history_aborts_iff w ops (EdgeList.new n)).1.2
    (show EdgeList.PushesOpen true (pushes es ++ [.closeForPushBack]) from pushesOpen_pushes es _ trivial)
  have hrun : (f >>= fun el => pure el.closeForPushBack) = .ok el := by
    rw [hf, ← hel]
    show _ = EdgeList.run w (EdgeList.new n).openForPushBack (pushes es ++ [.closeForPushBack])
    rw [run_append]; rfl
  refine ⟨el, hrun, ?_, ?_, ?_⟩
  · have := (EdgeList.edgelist_records_pushes w n ops el (by rw [EdgeList.IdsFit, hp]; intro x hx; have := hfit x hx; omega) hel).2.1
    rw [this, hp]
  · have := (EdgeList.edgelist_num_vertices_partial w n ops el hn (by rw [hp]; exact hfit) hel).1
    rw [this, hp]
  · cases hx : f with
    | error e => rw [hx] at hrun; cases hrun
    | ok el1 => rw [hx] at hrun; cases hrun; rfl

theorem fillDirected_run {F : MMFile} (hf : Fits w F) {lines : List (List Char)} {entries : List (Nat × Nat × List Char)}
    (he : ∀ e ∈ entries, e ∈ F.entries) (h : List.Forall₂ (EntryLine (F.field = kwPattern)) entries lines) {cs : List Char}
    (hl : HasLines lines cs) (el : EdgeList α) :
    fillDirected V w F.symmetric (decide (F.field = kwPattern)) entries.length cs el =
      EdgeList.run w el (pushes (directedEdges V { F with entries := entries })) := by
  induction h generalizing cs el with
  | nil => rfl
  | cons h1 h2 ih =>
    rename_i e l es ls
    obtain ⟨rest, g, l'⟩ := HasLines.head hl
    obtain ⟨b1, b2, b3, b4⟩ := hf.entries e (he e (by simp))
    have w64 : 2 ^ w ≤ 2 ^ 64 := Nat.pow_le_pow_right (by decide) hf.width
    have hp := parseEntry_spec (V := V) h1 (by omega) (by omega)
    have ih' := fun el => ih (fun x hx => he x (by simp [hx])) l' el
    rw [List.length_cons, fillDirected, g]
    simp only [Option.getD_some, hp, res_bind_ok, decr_eq b1 b2 hf.width, decr_eq b3 b4 hf.width]
    rw [directedEdges, List.flatMap_cons, pushes, List.map_append, ← pushes, ← pushes, run_append]
    have hval : value V { F with entries := e :: es } e = if F.field = kwPattern then V.one else V.rd e.2.2 := rfl
    simp only [hval]
    have ih'' : ∀ el, fillDirected V w F.symmetric (decide (F.field = kwPattern)) es.length rest el =
      EdgeList.run w el (pushes (List.flatMap (fun e => (e.1 - 1, e.2.1 - 1, value V { F with entries := es } e) ::
        if F.symmetric = true ∧ e.1 ≠ e.2.1 then [(e.2.1 - 1, e.1 - 1, value V { F with entries := es } e)] else []) es)) := ih'
    by_cases hsym : F.symmetric = true ∧ e.1 ≠ e.2.1
    · rw [if_pos hsym]
      have hc : (F.symmetric && decide (e.1 ≠ e.2.1)) = true := by simp [hsym.1, hsym.2]
      simp only [hc, if_true]
      simp only [pushes, List.map_cons, List.map_nil, EdgeList.run, EdgeList.exec]
      cases EdgeList.pushBack w el (e.1 - 1) (e.2.1 - 1) (if F.field = kwPattern then V.one else V.rd e.2.2) with
      | error x => rfl
      | ok el1 =>
        simp only [res_bind_ok]
        cases EdgeList.pushBack w el1 (e.2.1 - 1) (e.1 - 1) (if F.field = kwPattern then V.one else V.rd e.2.2) with
        | error x => rfl
        | ok el2 => exact ih'' el2
    · rw [if_neg hsym]
      have hc : (F.symmetric && decide (e.1 ≠ e.2.1)) = false := by
        cases hs : F.symmetric with
        | false => rfl
        | true => simp only [hs, true_and] at hsym; simp only [Bool.true_and, decide_eq_false_iff_not]; exact hsym
      simp only [hc]
      simp only [pushes, List.map_cons, List.map_nil, EdgeList.run, EdgeList.exec]
      cases EdgeList.pushBack w el (e.1 - 1) (e.2.1 - 1) (if F.field = kwPattern then V.one else V.rd e.2.2) with
      | error x => rfl
      | ok el1 => exact ih'' el1

theorem fillUndirected_run {F : MMFile} (hf : Fits w F) {lines : List (List Char)} {entries : List (Nat × Nat × List Char)}
    (he : ∀ e ∈ entries, e ∈ F.entries) (h : List.Forall₂ (EntryLine (F.field = kwPattern)) entries lines) {cs : List Char}
    (hl : HasLines lines cs) (el : EdgeList α) :
    fillUndirected V w (decide (F.field = kwPattern)) entries.length cs el =
      EdgeList.run w el (pushes (undirectedEdges V { F with entries := entries })) := by
  induction h generalizing cs el with
  | nil => rfl
  | cons h1 h2 ih =>
    rename_i e l es ls
    obtain ⟨rest, g, l'⟩ := HasLines.head hl
    obtain ⟨b1, b2, b3, b4⟩ := hf.entries e (he e (by simp))
    have w64 : 2 ^ w ≤ 2 ^ 64 := Nat.pow_le_pow_right (by decide) hf.width
    have hp := parseEntry_spec (V := V) h1 (by omega) (by omega)
    have ih' := fun el => ih (fun x hx => he x (by simp [hx])) l' el
    rw [List.length_cons, fillUndirected, g]
    simp only [Option.getD_some, hp, res_bind_ok, decr_eq b1 b2 hf.width, decr_eq b3 b4 hf.width]
    simp only [undirectedEdges, pushes, List.map_cons, EdgeList.run, EdgeList.exec]
    have hval : value V { F with entries := e :: es } e = if F.field = kwPattern then V.one else V.rd e.2.2 := rfl
    rw [hval]
    cases EdgeList.pushBack w el (e.1 - 1) (e.2.1 - 1) (if F.field = kwPattern then V.one else V.rd e.2.2) with
    | error x => rfl
    | ok el1 => exact ih' el1

/-- The trivial attribute type of lists without attributes. -/
def noVal : Val Unit := ⟨(), fun _ => (), fun _ => []⟩

theorem fillPlain_run {F : MMFile} (hf : Fits w F) {lines : List (List Char)} {entries : List (Nat × Nat × List Char)}
    (he : ∀ e ∈ entries, e ∈ F.entries) (h : List.Forall₂ (EntryLine (F.field = kwPattern)) entries lines) {cs : List Char}
    {more : List (List Char)} (hl : words cs = lines.flatMap words ++ more) (el : EdgeList Unit) :
    fillPlain w (decide (F.field = kwPattern)) entries.length ⟨cs, true⟩ el =
      EdgeList.run w el (pushes (undirectedEdges noVal { F with entries := entries })) := by
  induction h generalizing cs el with
  | nil => rfl
  | cons h1 h2 ih =>
    rename_i e l es ls
    obtain ⟨b1, b2, b3, b4⟩ := hf.entries e (he e (by simp))
    have w64 : 2 ^ w ≤ 2 ^ 64 := Nat.pow_le_pow_right (by decide) hf.width
    obtain ⟨r, c, hr, hc, hw⟩ := h1
    rw [List.flatMap_cons, List.append_assoc] at hl
    have key : ∃ ts, words cs = r :: c :: (ts ++ (ls.flatMap words ++ more)) ∧ ((F.field = kwPattern ∧ ts = []) ∨ (¬ F.field = kwPattern ∧ ts = [e.2.2])) := by
      rcases hw with ⟨hp, hw⟩ | ⟨hp, hw⟩
      · exact ⟨[], by rw [hl, hw]; rfl, .inl ⟨hp, rfl⟩⟩
      · exact ⟨[e.2.2], by rw [hl, hw]; rfl, .inr ⟨hp, rfl⟩⟩
    obtain ⟨ts, hw, hts⟩ := key
    obtain ⟨c1, e1, f1⟩ := readSize_words (s := ⟨cs, true⟩) rfl hw hr (by omega)
    obtain ⟨c2, e2, f2⟩ := readSize_words (s := ⟨c1, true⟩) rfl f1 hc (by omega)
    rw [List.length_cons, fillPlain]
    have hrest : ∃ c3, (if decide (F.field = kwPattern) = true then (⟨c2, true⟩ : In) else (readWord ⟨c2, true⟩).2) = ⟨c3, true⟩ ∧ words c3 = ls.flatMap words ++ more := by
      rcases hts with ⟨hp, rfl⟩ | ⟨hp, rfl⟩
      · exact ⟨c2, by simp [hp], f2⟩
      · obtain ⟨c3, e3, f3⟩ := readWord_words (s := ⟨c2, true⟩) rfl f2
        exact ⟨c3, by simp [hp, e3], f3⟩
    obtain ⟨c3, e3, f3⟩ := hrest
    have ih' := fun el => ih (fun x hx => he x (by simp [hx])) f3 el
    simp only [e1, e2, e3, assigned, res_bind_ok, decr_eq b1 b2 hf.width, decr_eq b3 b4 hf.width]
    simp only [undirectedEdges, pushes, List.map_cons, EdgeList.run, EdgeList.exec]
    show _ = EdgeList.pushBack w el (e.1 - 1) (e.2.1 - 1) () >>= _
    cases EdgeList.pushBack w el (e.1 - 1) (e.2.1 - 1) () with
    | error x => rfl
    | ok el1 => exact ih' el1

theorem directedEdges_fit {F : MMFile} (hf : Fits w F) : ∀ x ∈ directedEdges V F, x.1 + 1 < 2 ^ w ∧ x.2.1 + 1 < 2 ^ w := by
  intro x hx
  obtain ⟨e, he, hx⟩ := List.mem_flatMap.1 hx
  obtain ⟨b1, b2, b3, b4⟩ := hf.entries e he
  rcases List.mem_cons.1 hx with rfl | hx
  · simp only; omega
  · split at hx
    · rw [List.mem_singleton] at hx; subst hx; simp only; omega
    · cases hx

theorem undirectedEdges_fit {F : MMFile} (hf : Fits w F) : ∀ x ∈ undirectedEdges V F, x.1 + 1 < 2 ^ w ∧ x.2.1 + 1 < 2 ^ w := by
  intro x hx
  obtain ⟨e, he, rfl⟩ := List.mem_map.1 hx
  obtain ⟨b1, b2, b3, b4⟩ := hf.entries e he
  simp only; omega

/-! ## C62 -/

/-- C62, directed graphs (with or without an attribute). Reading a file yields exactly the entries listed, with zero-based ids, each followed, in a symmetric file, by its mirror image
if it is off the diagonal.  The number of vertices is the declared number of rows, or more if an entry lies outside; the list is closed. -/
theorem read_mm_directed (V : Val α) (text : List Char) (F : MMFile) (hd : Describes text F) (hf : Fits w F) :
    ∃ el, readDirected V w text = .ok el ∧ el.elems = .ok (directedEdges V F) ∧ F.rows ≤ el.numVertices ∧
      el.numVertices = EdgeList.impliedSize F.rows (directedEdges V F) ∧ el.isOpen = false := by
  obtain ⟨rest, lines, h1, h2, h3⟩ := readPrelude_spec hd hf
  obtain ⟨el, g1, g2, g3, g4⟩ := fill_result hf.rows (directedEdges_fit (V := V) hf) _ (fillDirected_run hf (fun _ h => h) h3 h2 _)
  refine ⟨el, ?_, g2, ?_, g3, g4⟩
  · unfold readDirected; rw [h1]; exact g1
  · rw [g3]; exact EdgeList.impliedSize_ge _ _

/-- C62, undirected graphs with an attribute: one edge per entry, whatever the symmetry of the file. -/
theorem read_mm_undirected (V : Val α) (text : List Char) (F : MMFile) (hd : Describes text F) (hf : Fits w F) :
    ∃ el, readUndirected V w text = .ok el ∧ el.elems = .ok (undirectedEdges V F) ∧ F.rows ≤ el.numVertices ∧
      el.numVertices = EdgeList.impliedSize F.rows (undirectedEdges V F) ∧ el.isOpen = false := by
  obtain ⟨rest, lines, h1, h2, h3⟩ := readPrelude_spec hd hf
  obtain ⟨el, g1, g2, g3, g4⟩ := fill_result hf.rows (undirectedEdges_fit (V := V) hf) _ (fillUndirected_run hf (fun _ h => h) h3 h2 _)
  refine ⟨el, ?_, g2, ?_, g3, g4⟩
  · unfold readUndirected; rw [h1]; exact g1
  · rw [g3]; exact EdgeList.impliedSize_ge _ _

/-- C62, undirected graphs without attributes. -/
theorem read_mm_undirected_plain (text : List Char) (F : MMFile) (hd : Describes text F) (hf : Fits w F) :
    ∃ el, readPlain w text = .ok el ∧ el.elems = .ok (undirectedEdges noVal F) ∧ F.rows ≤ el.numVertices ∧
      el.numVertices = EdgeList.impliedSize F.rows (undirectedEdges noVal F) ∧ el.isOpen = false := by
  obtain ⟨rest, lines, h1, h2, h3⟩ := readPrelude_spec hd hf
  obtain ⟨more, h2⟩ := words_lines h2
  obtain ⟨el, g1, g2, g3, g4⟩ := fill_result hf.rows (undirectedEdges_fit (V := noVal) hf) _ (fillPlain_run hf (fun _ h => h) h3 h2 _)
  refine ⟨el, ?_, g2, ?_, g3, g4⟩
  · unfold readPlain; rw [h1]; exact g1
  · rw [g3]; exact EdgeList.impliedSize_ge _ _

/-! ### Files that are not accepted -/

/-- A text whose first line does not begin with the word `%%MatrixMarket`, or whose fifth word is neither `symmetric` nor `general`, ends the program. -/
theorem read_mm_rejects (V : Val α) (text : List Char) (header rest : List Char) (hl : getline text = some (header, rest))
    (hbad : (words header)[0]? ≠ some kwBanner ∨ ((words header)[4]? ≠ some kwSymmetric ∧ (words header)[4]? ≠ some kwGeneral)) :
    readDirected V w text = .error .terminated ∧ readUndirected V w text = .error .terminated ∧ readPlain w text = .error .terminated := by
  have hnil : ∀ (n : Nat) (s : In), words s.chars = [] → ∀ i : Nat, (headerWords n s)[i]? = none ∨ (headerWords n s)[i]? = some [] := by
    intro n
    induction n with
    | zero => intro s _ i; exact .inl (by simp [headerWords])
    | succ n ih =>
      intro s hs i
      have h1 := readWord_nil hs
      have h2 : words (readWord s).2.chars = [] := by
        unfold readWord
        split
        · exact hs
        · have : s.chars.dropWhile isSpace = [] := dropWhile_all (words_eq_nil hs)
          rw [this]; rfl
      rw [headerWords, h1]
      cases i with
      | zero => exact .inr rfl
      | succ i => exact ih _ h2 i
  have key : ∀ (n i : Nat) (s : In), s.good = true → i < n → (headerWords n s)[i]? = some [] ∨ (headerWords n s)[i]? = (words s.chars)[i]? := by
    intro n
    induction n with
    | zero => intro i s _ h; omega
    | succ n ih =>
      intro i s hg hi
      cases hw : words s.chars with
      | nil =>
        rcases hnil (n + 1) s hw i with h | h
        · exact .inr (by rw [h]; simp)
        · exact .inl h
      | cons t ts =>
        obtain ⟨r, h1, h2⟩ := readWord_words hg hw
        rw [headerWords, h1]
        cases i with
        | zero => exact .inr rfl
        | succ i =>
          have := ih i ⟨r, true⟩ rfl (by omega)
          rw [h2] at this
          simpa using this
  have hp : readPrelude text = .error .terminated := by
    unfold readPrelude
    rw [hl]
    simp only [Option.getD_some]
    have k0 := key 5 0 ⟨header, true⟩ rfl (by omega)
    have k4 := key 5 4 ⟨header, true⟩ rfl (by omega)
    split
    · rfl
    · rename_i h0
      have h0 : (headerWords 5 ⟨header, true⟩)[0]? = some sBanner := by simpa using h0
      have e1 : ([] : List Char) ≠ sBanner := by decide
      have e2 : ([] : List Char) ≠ kwSymmetric := by decide
      have e3 : ([] : List Char) ≠ kwGeneral := by decide
      split
      · rfl
      · rename_i h4
        exfalso
        rcases hbad with hb | ⟨hb1, hb2⟩
        · rcases k0 with k | k
          · rw [k] at h0; exact e1 (Option.some.inj h0)
          · exact hb (by rw [← k]; exact h0)
        · apply h4
          rcases k4 with k | k
          · rw [k]
            exact ⟨fun e => e2 (Option.some.inj e), fun e => e3 (Option.some.inj e)⟩
          · rw [k]; exact ⟨hb1, hb2⟩
  refine ⟨?_, ?_, ?_⟩
  · unfold readDirected; rw [hp]; rfl
  · unfold readUndirected; rw [hp]; rfl
  · unfold readPlain; rw [hp]; rfl

/-- The comment loop stops at a blank line as well: after a good header, a blank line before the sizes makes the program use uninitialised sizes, whatever follows. -/
theorem read_mm_blank_line (V : Val α) (header : List Char) (comments : List (List Char)) (text : List Char) (a b c : List Char) (sym : Bool)
    (hh : words header = [kwBanner, a, b, c, if sym then kwSymmetric else kwGeneral]) (hc : ∀ l ∈ comments, l.head? = some '%')
    (hl : HasLines (header :: comments ++ [[]]) text) :
    readDirected V w text = .error .uninitialised ∧ readUndirected V w text = .error .uninitialised ∧ readPlain w text = .error .uninitialised := by
  obtain ⟨r1, g1, l1⟩ := HasLines.head hl
  obtain ⟨r2, g2, l2⟩ := skipComments_lines (comments := comments) (size := []) (ls := []) l1 hc (by simp)
  have hw : headerWords 5 ⟨header, true⟩ = _ := headerWords_words (s := ⟨header, true⟩) rfl hh
  have hp : readPrelude text = .error .uninitialised := by
    unfold readPrelude
    rw [g1]
    simp only [Option.getD_some, hw, g2, readSize_nil (s := ⟨[], true⟩) rfl, assigned]
    have k1 : sBanner = kwBanner := rfl
    have k2 : sSymmetric = kwSymmetric := rfl
    have k3 : sGeneral = kwGeneral := rfl
    rw [k1, k2, k3, if_neg (by simp), if_neg (by cases sym <;> simp)]
    rfl
  refine ⟨?_, ?_, ?_⟩
  · unfold readDirected; rw [hp]; rfl
  · unfold readUndirected; rw [hp]; rfl
  · unfold readPlain; rw [hp]; rfl

/-! ## C63 -/

theorem digit_char : ∀ k < 10, '0' ≤ Char.ofNat (48 + k) ∧ Char.ofNat (48 + k) ≤ '9' ∧ (Char.ofNat (48 + k)).toNat - '0'.toNat = k := by decide

theorem showNat_numeral (n : Nat) : Numeral (showNat n) n := by
  induction n using Nat.strongRecOn with
  | ind n ih =>
    rw [showNat]
    split
    · rename_i h
      obtain ⟨h1, h2, h3⟩ := digit_char n h
      refine ⟨by simp, by intro c hc; rw [List.mem_singleton] at hc; subst hc; exact ⟨h1, h2⟩, ?_⟩
      rw [List.foldl_cons, List.foldl_nil, h3]; omega
    · rename_i h
      obtain ⟨h1, h2, h3⟩ := digit_char (n % 10) (by omega)
      obtain ⟨i1, i2, i3⟩ := ih (n / 10) (by omega)
      refine ⟨by simp, ?_, ?_⟩
      · intro c hc
        rcases List.mem_append.1 hc with hc | hc
        · exact i2 c hc
        · rw [List.mem_singleton] at hc; subst hc; exact ⟨h1, h2⟩
      · rw [List.foldl_append, i3, List.foldl_cons, List.foldl_nil, h3]; omega

theorem numeral_blank {t : List Char} {n : Nat} (h : Numeral t n) : ∀ c ∈ t, blank c = false := by
  intro c hc
  obtain ⟨a, b⟩ := h.2.1 c hc
  cases hb : blank c with
  | false => rfl
  | true =>
    have := blank_not_digit hb
    simp [isDigit, a, b] at this

theorem not_newline {t : List Char} (h : ∀ c ∈ t, blank c = false) : '\n' ∉ t := by
  intro hm
  have := h _ hm
  exact absurd this (by decide)

/-- An edge list with the given contents, whose ids are below its number of vertices. -/
structure Holds (w : Nat) (el : EdgeList α) (es : List (Nat × Nat × α)) : Prop where
  elems : el.elems = .ok es
  card : el.numVertices < 2 ^ w
  ids : ∀ e ∈ es, e.1 < el.numVertices ∧ e.2.1 < el.numVertices

/-- Every list obtained by pushing edges is of this kind. -/
theorem holds_of_pushes (n : Nat) (ops : List (EdgeList.Op α)) (el : EdgeList α) (hn : n < 2 ^ w)
    (hfit : ∀ x ∈ EdgeList.pushed ops, x.1 + 1 < 2 ^ w ∧ x.2.1 + 1 < 2 ^ w) (hrun : EdgeList.run w (EdgeList.new n) ops = .ok el) :
    Holds w el (EdgeList.pushed ops) := by
  obtain ⟨h1, _⟩ := EdgeList.edgelist_num_vertices_partial w n ops el hn hfit hrun
  have hlt : ∀ (es : List (Nat × Nat × α)) (n : Nat), n < 2 ^ w → (∀ x ∈ es, x.1 + 1 < 2 ^ w ∧ x.2.1 + 1 < 2 ^ w) → EdgeList.impliedSize n es < 2 ^ w := by
    intro es
    induction es with
    | nil => intro n h _; exact h
    | cons e es ih =>
      intro n h hf
      have := hf e (by simp)
      exact ih (max n (max (e.1 + 1) (e.2.1 + 1))) (by omega) fun x hx => hf x (by simp [hx])
  refine ⟨(EdgeList.edgelist_records_pushes w n ops el (fun x hx => by have := hfit x hx; omega) hrun).2.1, ?_, ?_⟩
  · rw [h1]; exact hlt _ _ hn hfit
  · rw [h1]; exact EdgeList.impliedSize_gt _ _

/-- The content of the file written for the edges `es`. -/
def written (V : Val α) (weighted : Bool) (wType : List Char) (symmetric : Bool) (n : Nat) (es : List (Nat × Nat × α)) : MMFile :=
  ⟨wType, symmetric, n, n, es.map fun e => (e.1 + 1, e.2.1 + 1, if weighted then V.wr e.2.2 else [])⟩

/-- The edges listed in the file: each once, or each followed by its mirror image. -/
def listed (double : Bool) (es : List (Nat × Nat × α)) : List (Nat × Nat × α) :=
  es.flatMap fun e => e :: if double then [(e.2.1, e.1, e.2.2)] else []

/-- A line without its newline. -/
def lineText (V : Val α) (weighted : Bool) (e : Nat × Nat × α) : List Char :=
  showNat (e.1 + 1) ++ ' ' :: (showNat (e.2.1 + 1) ++ if weighted then ' ' :: V.wr e.2.2 else [])

theorem lineText_words {weighted : Bool} (hV : Faithful V weighted) (e : Nat × Nat × α) :
    words (lineText V weighted e) = showNat (e.1 + 1) :: showNat (e.2.1 + 1) :: if weighted then [V.wr e.2.2] else [] := by
  have single : ∀ {t : List Char}, t ≠ [] → (∀ c ∈ t, blank c = false) → words t = [t] := by
    intro t h1 h2
    have := words_word (rest := []) h1 h2 (.inl rfl)
    rwa [List.append_nil] at this
  have n1 := showNat_numeral (e.1 + 1)
  have n2 := showNat_numeral (e.2.1 + 1)
  unfold lineText
  rw [words_append _ _ (by decide), single n1.1 (numeral_blank n1)]
  cases hw : weighted with
  | false => simp [single n2.1 (numeral_blank n2)]
  | true =>
    obtain ⟨h1, h2, _⟩ := hV.word hw e.2.2
    simp only [if_true]
    rw [words_append _ _ (by decide), single n2.1 (numeral_blank n2), single h1 h2]
    rfl

theorem lineText_newline {weighted : Bool} (hV : Faithful V weighted) (e : Nat × Nat × α) : '\n' ∉ lineText V weighted e := by
  unfold lineText
  simp only [List.mem_append, List.mem_cons]
  rintro (h | h | h | h)
  · exact not_newline (numeral_blank (showNat_numeral _)) h
  · exact absurd h (by decide)
  · exact not_newline (numeral_blank (showNat_numeral _)) h
  · cases hw : weighted with
    | false => rw [hw] at h; cases h
    | true =>
      rw [hw] at h
      obtain ⟨_, h2, _⟩ := hV.word hw e.2.2
      rcases List.mem_cons.1 h with h | h
      · exact absurd h (by decide)
      · exact not_newline h2 h

theorem lines_text {weighted : Bool} (hV : Faithful V weighted) (es : List (Nat × Nat × α)) (hfit : ∀ e ∈ es, e.1 + 1 < 2 ^ w ∧ e.2.1 + 1 < 2 ^ w) :
    HasLines (es.map (lineText V weighted)) (es.flatMap fun e => entryText V w weighted e.1 e.2.1 e.2.2) := by
  induction es with
  | nil => exact .nil _
  | cons e es ih =>
    obtain ⟨h1, h2⟩ := hfit e (by simp)
    rw [List.flatMap_cons, List.map_cons]
    have : entryText V w weighted e.1 e.2.1 e.2.2 = lineText V weighted e ++ ['\n'] := by
      unfold entryText lineText
      rw [Nat.mod_eq_of_lt h1, Nat.mod_eq_of_lt h2]
      simp
    rw [this, List.append_assoc]
    exact .cons (lineText_newline hV e) (ih fun x hx => hfit x (by simp [hx]))

theorem mapM_length {β : Type} {f : Nat → Res β} : ∀ {l : List Nat} {ys : List β}, l.mapM f = .ok ys → ys.length = l.length
  | [], ys, h => by cases h; rfl
  | x :: l, ys, h => by
    rw [List.mapM_cons] at h
    cases hx : f x with
    | error e => rw [hx] at h; cases h
    | ok y =>
      rw [hx] at h
      cases hl : l.mapM f with
      | error e => rw [hl] at h; cases h
      | ok ys' => rw [hl] at h; cases h; simp [mapM_length hl]

theorem listed_length (double : Bool) (es : List (Nat × Nat × α)) : (listed double es).length = if double then 2 * es.length else es.length := by
  unfold listed
  induction es with
  | nil => cases double <;> rfl
  | cons e es ih =>
    rw [List.flatMap_cons, List.length_append, ih]
    cases double <;> simp <;> omega

theorem listed_fit {double : Bool} {n : Nat} {es : List (Nat × Nat × α)} (h : ∀ e ∈ es, e.1 < n ∧ e.2.1 < n) :
    ∀ e ∈ listed double es, e.1 < n ∧ e.2.1 < n := by
  intro x hx
  obtain ⟨e, he, hx⟩ := List.mem_flatMap.1 hx
  obtain ⟨h1, h2⟩ := h e he
  rcases List.mem_cons.1 hx with rfl | hx
  · exact ⟨h1, h2⟩
  · cases double with
    | false => cases hx
    | true => rw [if_pos rfl, List.mem_singleton] at hx; subst hx; exact ⟨h2, h1⟩

/-- A text of the form written describes its edges. -/
theorem describes_of_text_rect {weighted : Bool} (hV : Faithful V weighted) (sym : Bool) (wType : List Char) (n m k : Nat) (es : List (Nat × Nat × α)) (hk : k = es.length)
    (hw : wType ≠ [] ∧ ∀ c ∈ wType, blank c = false) (hp : wType = kwPattern ↔ weighted = false) (hfit : ∀ e ∈ es, e.1 + 1 < 2 ^ w ∧ e.2.1 + 1 < 2 ^ w) :
    Describes ("%%MatrixMarket matrix coordinate ".toList ++ wType ++ ' ' :: (if sym then kwSymmetric else kwGeneral) ++ "\n%%\n".toList
        ++ showNat n ++ ' ' :: showNat m ++ ' ' :: showNat k ++ '\n' :: es.flatMap fun e => entryText V w weighted e.1 e.2.1 e.2.2)
      ⟨wType, sym, n, m, es.map fun e => (e.1 + 1, e.2.1 + 1, if weighted then V.wr e.2.2 else [])⟩ := by
  have single : ∀ {t : List Char}, t ≠ [] → (∀ c ∈ t, blank c = false) → words t = [t] := by
    intro t h1 h2
    have := words_word (rest := []) h1 h2 (.inl rfl)
    rwa [List.append_nil] at this
  have hfs : (if sym = true then kwSymmetric else kwGeneral) ≠ [] ∧ ∀ c ∈ (if sym = true then kwSymmetric else kwGeneral), blank c = false := by
    cases sym <;> decide
  have hhead : "%%MatrixMarket matrix coordinate ".toList ++ wType ++ ' ' :: (if sym = true then kwSymmetric else kwGeneral) =
      kwBanner ++ ' ' :: ("matrix".toList ++ ' ' :: ("coordinate".toList ++ ' ' :: (wType ++ ' ' :: (if sym = true then kwSymmetric else kwGeneral)))) := by
    have : "%%MatrixMarket matrix coordinate ".toList = kwBanner ++ ' ' :: ("matrix".toList ++ ' ' :: ("coordinate".toList ++ [' '])) := by decide
    rw [this]
    simp
  have hsep : "\n%%\n".toList = '\n' :: ['%', '%', '\n'] := by decide
  refine ⟨"%%MatrixMarket matrix coordinate ".toList ++ wType ++ ' ' :: (if sym = true then kwSymmetric else kwGeneral), [['%', '%']],
    showNat n ++ ' ' :: (showNat m ++ ' ' :: showNat es.length), es.map (lineText V weighted),
    ?_, ⟨"matrix".toList, "coordinate".toList, ?_⟩, ?_, ⟨_, _, showNat es.length, ?_, showNat_numeral _, showNat_numeral _, ?_⟩, ?_⟩
  · have htext : "%%MatrixMarket matrix coordinate ".toList ++ wType ++ ' ' :: (if sym = true then kwSymmetric else kwGeneral) ++ "\n%%\n".toList
        ++ showNat n ++ ' ' :: showNat m ++ ' ' :: showNat k
        ++ '\n' :: (es.flatMap fun e => entryText V w weighted e.1 e.2.1 e.2.2) =
      ("%%MatrixMarket matrix coordinate ".toList ++ wType ++ ' ' :: (if sym = true then kwSymmetric else kwGeneral)) ++ '\n' :: (['%', '%'] ++ '\n' ::
        ((showNat n ++ ' ' :: (showNat m ++ ' ' :: showNat es.length)) ++ '\n' ::
        (es.flatMap fun e => entryText V w weighted e.1 e.2.1 e.2.2))) := by
      rw [hk, hsep]
      generalize "%%MatrixMarket matrix coordinate ".toList = x
      simp
    rw [htext]
    refine .cons ?_ (.cons (by decide) (.cons ?_ (lines_text hV _ hfit)))
    · rw [hhead]
      simp only [List.mem_append, List.mem_cons, not_or]
      exact ⟨by decide, by decide, by decide, by decide, by decide, by decide, not_newline hw.2, by decide, not_newline hfs.2⟩
    · simp only [List.mem_append, List.mem_cons, not_or]
      exact ⟨not_newline (numeral_blank (showNat_numeral _)), by decide, not_newline (numeral_blank (showNat_numeral _)), by decide,
        not_newline (numeral_blank (showNat_numeral _))⟩
  · rw [hhead, words_append _ _ (by decide), words_append _ _ (by decide), words_append _ _ (by decide), words_append _ _ (by decide),
      single hw.1 hw.2, single hfs.1 hfs.2, single (t := kwBanner) (by decide) (by decide), single (t := "matrix".toList) (by decide) (by decide),
      single (t := "coordinate".toList) (by decide) (by decide)]
    rfl
  · intro l hl; rw [List.mem_singleton] at hl; subst hl; rfl
  · rw [words_append _ _ (by decide), words_append _ _ (by decide), single (showNat_numeral n).1 (numeral_blank (showNat_numeral _)),
      single (showNat_numeral m).1 (numeral_blank (showNat_numeral _)), single (showNat_numeral es.length).1 (numeral_blank (showNat_numeral _))]
    rfl
  · simpa using showNat_numeral es.length
  · show List.Forall₂ (EntryLine (wType = kwPattern)) (es.map _) (es.map _)
    rw [List.forall₂_map_left_iff, List.forall₂_map_right_iff, List.forall₂_same]
    intro e _
    refine ⟨_, _, showNat_numeral _, showNat_numeral _, ?_⟩
    rw [lineText_words hV]
    cases hww : weighted with
    | false => exact .inl ⟨hp.2 hww, rfl⟩
    | true => exact .inr ⟨fun h => (by have := hp.1 h; rw [hww] at this; cases this), rfl⟩

theorem describes_of_text {weighted : Bool} (hV : Faithful V weighted) (sym : Bool) (wType : List Char) (n k : Nat) (es : List (Nat × Nat × α)) (hk : k = es.length)
    (hw : wType ≠ [] ∧ ∀ c ∈ wType, blank c = false) (hp : wType = kwPattern ↔ weighted = false) (hfit : ∀ e ∈ es, e.1 + 1 < 2 ^ w ∧ e.2.1 + 1 < 2 ^ w) :
    Describes ("%%MatrixMarket matrix coordinate ".toList ++ wType ++ ' ' :: (if sym then kwSymmetric else kwGeneral) ++ "\n%%\n".toList
        ++ showNat n ++ ' ' :: showNat n ++ ' ' :: showNat k ++ '\n' :: es.flatMap fun e => entryText V w weighted e.1 e.2.1 e.2.2)
      (written V weighted wType sym n es) :=
  describes_of_text_rect hV sym wType n n k es hk hw hp hfit

/-- The text written describes the listed edges. -/
theorem write_describes {el : EdgeList α} {es : List (Nat × Nat × α)} (hel : Holds w el es) (weighted undirected sym : Bool) (wType : List Char)
    (hV : Faithful V weighted) (hw : wType ≠ [] ∧ ∀ c ∈ wType, blank c = false) (hp : wType = kwPattern ↔ weighted = false) :
    ∃ text, writeMM V w weighted undirected wType el (if sym then kwSymmetric else kwGeneral) = .ok text ∧
      Describes text (written V weighted wType sym el.numVertices (listed (!sym && undirected) es)) := by
  have hsize : es.length = el.size := by
    have := mapM_length hel.elems
    rwa [List.length_range] at this
  have hdouble : (decide ((if sym = true then kwSymmetric else kwGeneral) = sGeneral) && undirected) = (!sym && undirected) := by
    have e1 : decide (kwSymmetric = sGeneral) = false := by decide
    have e2 : decide (kwGeneral = sGeneral) = true := by decide
    cases sym
    · simp only [Bool.false_eq_true, if_false, e2]; rfl
    · simp only [if_true, e1]; rfl
  generalize hdd : (!sym && undirected) = double at hdouble
  unfold writeMM aosStream
  simp only [hel.elems, res_bind_ok, hdouble, res_pure]
  refine ⟨_, rfl, ?_⟩
  have hbody : (es.flatMap fun e => entryText V w weighted e.1 e.2.1 e.2.2 ++ if double = true then entryText V w weighted e.2.1 e.1 e.2.2 else []) =
      (listed double es).flatMap fun e => entryText V w weighted e.1 e.2.1 e.2.2 := by
    unfold listed
    rw [List.flatMap_assoc]
    congr 1
    funext e
    cases double <;> simp
  rw [hbody]
  have hfit : ∀ e ∈ listed double es, e.1 + 1 < 2 ^ w ∧ e.2.1 + 1 < 2 ^ w := by
    intro e he
    have := listed_fit hel.ids e he
    have := hel.card
    omega
  exact describes_of_text hV sym wType _ _ _ (by rw [listed_length, hsize]) hw hp hfit

theorem written_fits {el : EdgeList α} {es : List (Nat × Nat × α)} (hw : w ≤ 64) (hel : Holds w el es) (weighted sym double : Bool) (wType : List Char)
    (hcount : (listed double es).length < 2 ^ 64) : Fits w (written V weighted wType sym el.numVertices (listed double es)) := by
  have w64 : 2 ^ w ≤ 2 ^ 64 := Nat.pow_le_pow_right (by decide) hw
  have := hel.card
  refine ⟨hw, hel.card, Nat.lt_of_lt_of_le hel.card w64, by simpa [written] using hcount, ?_⟩
  intro x hx
  obtain ⟨e, he, rfl⟩ := List.mem_map.1 hx
  have := listed_fit hel.ids e he
  simp only
  omega

theorem written_undirected {weighted : Bool} (hV : Faithful V weighted) {wType : List Char} (hp : wType = kwPattern ↔ weighted = false) (sym : Bool) (n : Nat)
    (es : List (Nat × Nat × α)) : undirectedEdges V (written V weighted wType sym n es) = es := by
  unfold undirectedEdges written
  rw [List.map_map]
  conv => rhs; rw [← List.map_id es]
  apply List.map_congr_left
  rintro ⟨i, j, a⟩ _
  simp only [Function.comp, Nat.add_sub_cancel, value, id]
  cases hw : weighted with
  | false => rw [if_pos (hp.2 hw), ← hV.unit hw a]
  | true =>
    rw [if_neg fun h => (by have := hp.1 h; rw [hw] at this; cases this), if_pos rfl, (hV.word hw a).2.2]

theorem written_directed {weighted : Bool} (hV : Faithful V weighted) {wType : List Char} (hp : wType = kwPattern ↔ weighted = false) (n : Nat)
    (es : List (Nat × Nat × α)) : directedEdges V (written V weighted wType false n es) = es := by
  have : directedEdges V (written V weighted wType false n es) = undirectedEdges V (written V weighted wType false n es) := by
    unfold directedEdges undirectedEdges
    rw [List.map_eq_flatMap]
    congr 1
  rw [this, written_undirected hV hp]

theorem impliedSize_of_lt {n : Nat} {es : List (Nat × Nat × α)} (h : ∀ e ∈ es, e.1 < n ∧ e.2.1 < n) : EdgeList.impliedSize n es = n := by
  induction es with
  | nil => rfl
  | cons e es ih =>
    have := h e (by simp)
    show EdgeList.impliedSize (max n (max (e.1 + 1) (e.2.1 + 1))) es = n
    rw [show max n (max (e.1 + 1) (e.2.1 + 1)) = n by omega]
    exact ih fun x hx => h x (by simp [hx])

/-- How `write_mm` can be called: without weights in a `pattern` file, or with weights in an `integer` or `real` file. -/
def GoodType (weighted : Bool) (wType : List Char) : Prop :=
  (weighted = false ∧ wType = "pattern".toList) ∨ (weighted = true ∧ (wType = "integer".toList ∨ wType = "real".toList))

theorem GoodType.word {weighted : Bool} {wType : List Char} (h : GoodType weighted wType) :
    (wType ≠ [] ∧ ∀ c ∈ wType, blank c = false) ∧ (wType = kwPattern ↔ weighted = false) := by
  rcases h with ⟨rfl, rfl⟩ | ⟨rfl, rfl | rfl⟩ <;> decide

/-- C63, directed lists (partial: the values must survive being printed and read, see `Faithful`). Writing a directed list in the `general` format and reading it back gives the same edges in the same order
and the same number of vertices. Not covered: undirected lists in the default format, see `write_read_undirected_general`. -/
theorem write_read_directed_partial (V : Val α) (el : EdgeList α) (es : List (Nat × Nat × α)) (hw : w ≤ 64) (hel : Holds w el es) (hlen : es.length < 2 ^ 64)
    (weighted : Bool) (wType : List Char) (ht : GoodType weighted wType) (hV : Faithful V weighted) :
    ∃ text el', writeMM V w weighted false wType el kwGeneral = .ok text ∧ readDirected V w text = .ok el' ∧ el'.elems = .ok es ∧
      el'.numVertices = el.numVertices := by
  obtain ⟨t1, t2⟩ := ht.word
  obtain ⟨text, h1, h2⟩ := write_describes hel weighted false false wType hV t1 t2
  have hl : listed false es = es := by unfold listed; simp
  have hf := written_fits (V := V) hw hel weighted false false wType (by rw [hl]; exact hlen)
  obtain ⟨el', g1, g2, _, g4, _⟩ := read_mm_directed V text _ h2 hf
  simp only [Bool.and_false, hl] at g2 g4
  rw [written_directed hV t2] at g2 g4
  exact ⟨text, el', h1, g1, g2, by rw [g4]; exact impliedSize_of_lt hel.ids⟩

/-- C63, undirected lists in the `symmetric` format: the same edges in the same order and the same number of vertices (with an attribute). -/
theorem write_read_symmetric_partial (V : Val α) (el : EdgeList α) (es : List (Nat × Nat × α)) (hw : w ≤ 64) (hel : Holds w el es) (hlen : es.length < 2 ^ 64)
    (weighted : Bool) (wType : List Char) (ht : GoodType weighted wType) (hV : Faithful V weighted) :
    ∃ text el', writeMM V w weighted true wType el kwSymmetric = .ok text ∧ readUndirected V w text = .ok el' ∧ el'.elems = .ok es ∧
      el'.numVertices = el.numVertices := by
  obtain ⟨t1, t2⟩ := ht.word
  obtain ⟨text, h1, h2⟩ := write_describes hel weighted true true wType hV t1 t2
  have hl : listed false es = es := by unfold listed; simp
  have hf := written_fits (V := V) hw hel weighted true false wType (by rw [hl]; exact hlen)
  obtain ⟨el', g1, g2, _, g4, _⟩ := read_mm_undirected V text _ h2 hf
  simp only [Bool.not_true, Bool.false_and, hl] at g2 g4
  rw [written_undirected hV t2] at g2 g4
  exact ⟨text, el', h1, g1, g2, by rw [g4]; exact impliedSize_of_lt hel.ids⟩

theorem noVal_faithful : Faithful noVal false := ⟨fun h => (by cases h), fun _ _ => rfl⟩

/-- C63, undirected lists without attributes in the `symmetric` format. -/
theorem write_read_symmetric_plain_partial (el : EdgeList Unit) (es : List (Nat × Nat × Unit)) (hw : w ≤ 64) (hel : Holds w el es) (hlen : es.length < 2 ^ 64) :
    ∃ text el', writeMM noVal w false true "pattern".toList el kwSymmetric = .ok text ∧ readPlain w text = .ok el' ∧ el'.elems = .ok es ∧
      el'.numVertices = el.numVertices := by
  obtain ⟨t1, t2⟩ := GoodType.word (.inl ⟨rfl, rfl⟩)
  obtain ⟨text, h1, h2⟩ := write_describes hel false true true _ noVal_faithful t1 t2
  have hl : listed false es = es := by unfold listed; simp
  have hf := written_fits (V := noVal) hw hel false true false "pattern".toList (by rw [hl]; exact hlen)
  obtain ⟨el', g1, g2, _, g4, _⟩ := read_mm_undirected_plain text _ h2 hf
  simp only [Bool.not_true, Bool.false_and, hl] at g2 g4
  rw [written_undirected noVal_faithful t2] at g2 g4
  exact ⟨text, el', h1, g1, g2, by rw [g4]; exact impliedSize_of_lt hel.ids⟩

/-- C63 fails for undirected lists in the default (`general`) format: what is read back has every edge twice, once in each direction; it is a different list unless it is empty. -/
theorem write_read_undirected_general (V : Val α) (el : EdgeList α) (es : List (Nat × Nat × α)) (hw : w ≤ 64) (hel : Holds w el es) (hlen : 2 * es.length < 2 ^ 64)
    (weighted : Bool) (wType : List Char) (ht : GoodType weighted wType) (hV : Faithful V weighted) :
    ∃ text el', writeMM V w weighted true wType el kwGeneral = .ok text ∧ readUndirected V w text = .ok el' ∧
      el'.elems = .ok (es.flatMap fun e => [e, (e.2.1, e.1, e.2.2)]) ∧ (es ≠ [] → el'.elems ≠ el.elems) := by
  obtain ⟨t1, t2⟩ := ht.word
  obtain ⟨text, h1, h2⟩ := write_describes hel weighted true false wType hV t1 t2
  have hlen' : (listed true es).length < 2 ^ 64 := by rw [listed_length]; exact hlen
  have hf := written_fits (V := V) hw hel weighted false true wType hlen'
  obtain ⟨el', g1, g2, _⟩ := read_mm_undirected V text _ h2 hf
  simp only [Bool.not_false, Bool.true_and] at g2
  rw [written_undirected hV t2] at g2
  refine ⟨text, el', h1, g1, g2, ?_⟩
  intro hne he
  rw [g2, hel.elems] at he
  injection he with he
  have := congrArg List.length he
  rw [listed_length] at this
  have := List.length_pos_iff.2 hne
  simp at *
  omega

/-- The same for undirected lists without attributes. -/
theorem write_read_undirected_general_plain (el : EdgeList Unit) (es : List (Nat × Nat × Unit)) (hw : w ≤ 64) (hel : Holds w el es) (hlen : 2 * es.length < 2 ^ 64) :
    ∃ text el', writeMM noVal w false true "pattern".toList el kwGeneral = .ok text ∧ readPlain w text = .ok el' ∧
      el'.elems = .ok (es.flatMap fun e => [e, (e.2.1, e.1, e.2.2)]) := by
  obtain ⟨t1, t2⟩ := GoodType.word (.inl ⟨rfl, rfl⟩)
  obtain ⟨text, h1, h2⟩ := write_describes hel false true false _ noVal_faithful t1 t2
  have hlen' : (listed true es).length < 2 ^ 64 := by rw [listed_length]; exact hlen
  have hf := written_fits (V := noVal) hw hel false false true "pattern".toList hlen'
  obtain ⟨el', g1, g2, _⟩ := read_mm_undirected_plain text _ h2 hf
  simp only [Bool.not_false, Bool.true_and] at g2
  rw [written_undirected noVal_faithful t2] at g2
  exact ⟨text, el', h1, g1, g2⟩

/-! ## C66 -/

/-- C66. For every coordinate file, `is_mm` holds, and `get_mm_symmetry` says "undirected" exactly for symmetric files. -/
theorem mm_symmetry (text : List Char) (F : MMFile) (hd : Describes text F) : isMM text = true ∧ getSymmetry text = .ok F.symmetric := by
  obtain ⟨header, comments, size, lines, h1, ⟨x, y, hh⟩, _⟩ := hd
  obtain ⟨r1, g1, _⟩ := HasLines.head h1
  have hw : headerWords 5 ⟨header, true⟩ = _ := headerWords_words (s := ⟨header, true⟩) rfl hh
  have k1 : sBanner = kwBanner := rfl
  have k2 : sSymmetric = kwSymmetric := rfl
  have k5 : kwGeneral ≠ kwSymmetric := by decide
  constructor
  · unfold isMM; rw [g1]; simp only [Option.getD_some, hw, k1]; simp
  · unfold getSymmetry; rw [g1]; simp only [Option.getD_some, hw, k1, k2]
    cases F.symmetric <;> simp [k5, res_pure]

/-! ## C67 -/

/-- The edges of a list of rows, in row order. -/
def rowEdges (rows : List (List (Nat × α))) : List (Nat × Nat × α) := rows.zipIdx.flatMap fun r => r.1.map fun e => (r.2, e.1, e.2)

theorem rowEdges_length (rows : List (List (Nat × α))) : (rowEdges rows).length = rows.foldl (fun a b => a + b.length) 0 := by
  have : ∀ (rows : List (List (Nat × α))) (k m : Nat), m + ((rows.zipIdx k).flatMap fun r => r.1.map fun e => (r.2, e.1, e.2)).length = rows.foldl (fun a b => a + b.length) m := by
    intro rows
    induction rows with
    | nil => intro k m; rfl
    | cons r rows ih =>
      intro k m
      rw [List.zipIdx_cons, List.flatMap_cons, List.length_append, List.foldl_cons, ← ih (k + 1), List.length_map]
      simp only
      omega
  have := this rows 0 0
  rw [Nat.zero_add] at this
  exact this

theorem rowEdges_src {rows : List (List (Nat × α))} {e : Nat × Nat × α} (h : e ∈ rowEdges rows) :
    e.1 < rows.length ∧ ∃ r ∈ rows, (e.2.1, e.2.2) ∈ r := by
  obtain ⟨⟨r, u⟩, hr, he⟩ := List.mem_flatMap.1 h
  obtain ⟨x, hx, rfl⟩ := List.mem_map.1 he
  have := List.mem_zipIdx hr
  refine ⟨by simp only at this ⊢; omega, r, ?_, hx⟩
  rw [this.2.2]
  exact List.getElem_mem _

/-- C67 (partial). Writing an `adjacency<0>` that can be iterated and reading the file back as a directed graph gives its edges, in row order, and the same number of vertices.
Not covered: an adjacency constructed from an edge list alone, which cannot be iterated (`write_adjacency_fails`), and `adjacency<1>`, where the file is wrong (`write_adjacency1_zero_based`). -/
theorem write_read_adjacency_partial (V : Val α) (g : Csr α) (rows : List (List (Nat × α))) (hw : w ≤ 64) (hg : g.outer = .ok rows) (hN : g.N = g.numVertices)
    (hn : g.numVertices < 2 ^ w) (hids : ∀ r ∈ rows, ∀ e ∈ r, e.1 < g.numVertices) (hlen : (rowEdges rows).length < 2 ^ 64)
    (weighted : Bool) (wType : List Char) (ht : GoodType weighted wType) (hV : Faithful V weighted) :
    ∃ text el, writeAdjacency V w weighted 0 wType g kwGeneral = .ok text ∧ readDirected V w text = .ok el ∧ el.elems = .ok (rowEdges rows) ∧
      el.numVertices = g.numVertices := by
  obtain ⟨t1, t2⟩ := ht.word
  have hrl : rows.length = g.numVertices := by
    have := mapM_length hg
    rw [List.length_range] at this; omega
  have hlt : ∀ e ∈ rowEdges rows, e.1 < g.numVertices ∧ e.2.1 < g.numVertices := by
    intro e he
    obtain ⟨h1, r, hr, h2⟩ := rowEdges_src he
    exact ⟨by omega, hids r hr _ h2⟩
  have hfit : ∀ e ∈ rowEdges rows, e.1 + 1 < 2 ^ w ∧ e.2.1 + 1 < 2 ^ w := by
    intro e he
    have := hlt e he
    omega
  have hd := describes_of_text (w := w) hV false wType g.numVertices _ (rowEdges rows) (rowEdges_length rows).symm t1 t2 hfit
  have w64 : 2 ^ w ≤ 2 ^ 64 := Nat.pow_le_pow_right (by decide) hw
  have hf : Fits w (written V weighted wType false g.numVertices (rowEdges rows)) := by
    refine ⟨hw, hn, Nat.lt_of_lt_of_le hn w64, by simpa [written] using hlen, ?_⟩
    intro x hx
    obtain ⟨e, he, rfl⟩ := List.mem_map.1 hx
    have := hfit e he
    simp only
    omega
  obtain ⟨el, g1, g2, _, g4, _⟩ := read_mm_directed V _ _ hd hf
  rw [written_directed hV t2] at g2 g4
  refine ⟨_, el, ?_, g1, g2, by rw [g4]; exact impliedSize_of_lt hlt⟩
  unfold writeAdjacency
  simp only [hg, res_bind_ok, res_pure]
  have hbody : (rows.zipIdx.flatMap fun r => r.1.flatMap fun e => adjText V w weighted 0 r.2 e) =
      (rowEdges rows).flatMap fun e => entryText V w weighted e.1 e.2.1 e.2.2 := by
    unfold rowEdges
    rw [List.flatMap_assoc]
    apply List.flatMap_congr
    rintro ⟨r, u⟩ hr
    rw [List.flatMap_map]
    apply List.flatMap_congr
    intro e he
    have := hfit (u, e.1, e.2) (List.mem_flatMap.2 ⟨(r, u), hr, List.mem_map.2 ⟨e, he, rfl⟩⟩)
    simp only [adjText, entryText, Nat.sub_zero]
    rw [Nat.mod_eq_of_lt (a := u + 1) this.1]
  rw [hbody]
  rfl

/-- C67 fails for every adjacency constructed from an edge list alone: `write_mm` reads its offsets out of bounds. -/
theorem write_adjacency_fails [Inhabited α] (V : Val α) (o : Csr.Oracles α) (ho : o.Ok) (directed : Bool) (el : EdgeList α) (hwf : el.Wf)
    (hb : EndpointsBelow el.numVertices el.contents) (idx : Nat) (hidx : idx < 2) (weighted : Bool) (wType fs : List Char) :
    ∃ g, Csr.ofEdgeList o directed idx false el = .ok g ∧ writeAdjacency V w weighted idx wType g fs = .error .outOfBounds := by
  obtain ⟨g, h1, h2⟩ := Csr.csr_outer_reads_past_end o ho directed el hwf hb idx hidx
  exact ⟨g, h1, by unfold writeAdjacency; rw [h2]; rfl⟩

/-- C67 fails for `adjacency<1>`: the ids are written zero-based, so an edge at vertex 0 comes back at the largest id. -/
theorem write_adjacency1_zero_based :
    (writeAdjacency noVal 32 false 1 kwPattern (⟨false, 2, [0, 1, 1], [1], [()]⟩ : Csr Unit) kwGeneral >>= fun text => readDirected noVal 32 text >>= EdgeList.elems) =
      .ok [(2 ^ 32 - 1, 0, ())] ∧ (⟨false, 2, [0, 1, 1], [1], [()]⟩ : Csr Unit).outer = .ok [[(1, ())], []] := by
  decide +kernel

/-! ## C68 -/

theorem readVector_loop {k : Nat} {ts : List (List Char)} {vals : List Nat} (h : List.Forall₂ Numeral ts vals) (hfit : ∀ v ∈ vals, v < 2 ^ 64) {cs : List Char}
    {more : List (List Char)} (hcs : words cs = ts ++ more) (d : Option Nat) (hk : k = vals.length) :
    readVector.loop w k d ⟨cs, true⟩ = .ok (vals.map fun v => decr v % 2 ^ w) := by
  induction h generalizing k cs d with
  | nil => subst hk; rfl
  | cons h1 h2 ih =>
    rename_i t v ts vs
    subst hk
    obtain ⟨c1, e1, f1⟩ := readSize_words (s := ⟨cs, true⟩) rfl hcs h1 (hfit v (by simp))
    rw [List.length_cons, readVector.loop, e1]
    simp only [assigned, res_bind_ok, ih (fun x hx => hfit x (by simp [hx])) f1 (some v) rfl, res_pure, List.map_cons]

/-- C68 (partial): `read_mm_vector` returns as many numbers as the file lists, in order, but each is one less than in the file. So the property holds of nothing but its length and order:
see `read_mm_vector_differs`. -/
theorem read_mm_vector_partial (text : List Char) (vals : List Nat) (hd : DescribesVector text vals) (hw : w ≤ 64) (hlen : vals.length < 2 ^ 64)
    (hfit : ∀ v ∈ vals, 1 ≤ v ∧ v < 2 ^ w) : readVector w text = .ok (vals.map (· - 1)) := by
  obtain ⟨header, comments, size, lines, h1, ⟨x, y, z, s, hh, hs'⟩, h3, ⟨n, m, hs, hn, hm⟩, h5⟩ := hd
  obtain ⟨r1, g1, l1⟩ := HasLines.head h1
  obtain ⟨r2, g2, l2⟩ := skipComments_lines l1 h3 (size_head hs hn)
  obtain ⟨more, l2⟩ := words_lines l2
  have hwd : headerWords 5 ⟨header, true⟩ = _ := headerWords_words (s := ⟨header, true⟩) rfl hh
  have w64 : 2 ^ w ≤ 2 ^ 64 := Nat.pow_le_pow_right (by decide) hw
  obtain ⟨c1, e1, f1⟩ := readSize_words (s := ⟨size, true⟩) rfl hs hn hlen
  obtain ⟨c2, e2, f2⟩ := readSize_words (s := ⟨c1, true⟩) rfl f1 hm (by decide)
  have hloop := readVector_loop (w := w) h5 (fun v hv => by have := hfit v hv; omega) l2 none rfl
  have hmap : (vals.map fun v => decr v % 2 ^ w) = vals.map (· - 1) := by
    apply List.map_congr_left
    intro v hv
    have := hfit v hv
    rw [decr_eq this.1 this.2 hw, Nat.mod_eq_of_lt (by omega)]
  have k1 : sBanner = kwBanner := rfl
  have k2 : sSymmetric = kwSymmetric := rfl
  have k3 : sGeneral = kwGeneral := rfl
  unfold readVector
  rw [g1]
  simp only [Option.getD_some, hwd, g2, e1, e2, assigned, res_bind_ok, check, hloop, hmap, k1, k2, k3]
  rw [if_neg (by simp), if_neg (by rcases hs' with rfl | rfl <;> simp)]
  rfl

/-- C68 fails: unless the file lists no values, what is returned is not what the file lists. -/
theorem read_mm_vector_differs (text : List Char) (vals : List Nat) (hd : DescribesVector text vals) (hw : w ≤ 64) (hlen : vals.length < 2 ^ 64)
    (hfit : ∀ v ∈ vals, 1 ≤ v ∧ v < 2 ^ w) (hne : vals ≠ []) : ∃ vec, readVector w text = .ok vec ∧ vec ≠ vals := by
  refine ⟨_, read_mm_vector_partial text vals hd hw hlen hfit, ?_⟩
  cases vals with
  | nil => exact absurd rfl hne
  | cons v vs =>
    intro h
    rw [List.map_cons] at h
    injection h with h _
    have := (hfit v (by simp)).1
    omega

/-! ## The hypotheses are met -/

/-- A symmetric integer file with a comment, an off-diagonal and a diagonal entry; the last line has no newline. -/
def exText : List Char :=
  "%%MatrixMarket matrix coordinate integer symmetric".toList ++ '\n' :: ("% a comment".toList ++ '\n' :: (" 3\t3 2".toList ++ '\n' :: ("2 1  40".toList ++ '\n' :: "3 3 07".toList)))

/-- Its content. -/
def exFile : MMFile := ⟨"integer".toList, true, 3, 3, [(2, 1, "40".toList), (3, 3, "07".toList)]⟩

theorem exText_describes : Describes exText exFile := by
  have num : ∀ (t : List Char) (n : Nat), t ≠ [] → (∀ c ∈ t, '0' ≤ c ∧ c ≤ '9') → t.foldl (fun a c => 10 * a + (c.toNat - '0'.toNat)) 0 = n → Numeral t n :=
    fun _ _ h1 h2 h3 => ⟨h1, h2, h3⟩
  refine ⟨"%%MatrixMarket matrix coordinate integer symmetric".toList, ["% a comment".toList], " 3\t3 2".toList, ["2 1  40".toList, "3 3 07".toList],
    .cons (by decide +kernel) (.cons (by decide +kernel) (.cons (by decide +kernel) (.cons (by decide +kernel) (.last (by decide +kernel) (by decide +kernel))))),
    ⟨"matrix".toList, "coordinate".toList, by decide +kernel⟩, by decide +kernel,
    ⟨['3'], ['3'], ['2'], by decide +kernel, num _ _ (by decide +kernel) (by decide +kernel) (by decide +kernel), num _ _ (by decide +kernel) (by decide +kernel) (by decide +kernel), num _ _ (by decide +kernel) (by decide +kernel) (by decide +kernel)⟩,
    .cons ⟨['2'], ['1'], num _ _ (by decide +kernel) (by decide +kernel) (by decide +kernel), num _ _ (by decide +kernel) (by decide +kernel) (by decide +kernel), .inr ⟨by decide +kernel, by decide +kernel⟩⟩
      (.cons ⟨['3'], ['3'], num _ _ (by decide +kernel) (by decide +kernel) (by decide +kernel), num _ _ (by decide +kernel) (by decide +kernel) (by decide +kernel), .inr ⟨by decide +kernel, by decide +kernel⟩⟩ .nil)⟩

theorem exFile_fits : Fits 32 exFile := by
  refine ⟨by decide +kernel, by decide +kernel, by decide +kernel, by decide +kernel, ?_⟩
  intro e he
  simp only [exFile, List.mem_cons, List.not_mem_nil, or_false] at he
  rcases he with rfl | rfl <;> decide

/-- Natural numbers as attribute. -/
def natVal : Val Nat := ⟨1, digitsVal 0, showNat⟩

theorem natVal_faithful : Faithful natVal true := by
  refine ⟨fun _ a => ?_, fun h => (by cases h)⟩
  have := showNat_numeral a
  exact ⟨this.1, numeral_blank this, by show digitsVal 0 (showNat a) = a; rw [digitsVal_eq]; exact this.2.2⟩

/-- What the theorems give for the example file. -/
example : directedEdges natVal exFile = [(1, 0, 40), (0, 1, 40), (2, 2, 7)] ∧ undirectedEdges natVal exFile = [(1, 0, 40), (2, 2, 7)] := by decide +kernel

example : ∃ el, readDirected natVal 32 exText = .ok el ∧ el.elems = .ok [(1, 0, 40), (0, 1, 40), (2, 2, 7)] := by
  obtain ⟨el, h1, h2, _⟩ := read_mm_directed natVal exText exFile exText_describes exFile_fits
  exact ⟨el, h1, h2⟩

/-- An edge list to write. -/
example : Holds 32 (⟨4, false, [0, 3, 3], [3, 1, 1], [7, 8, 9]⟩ : EdgeList Nat) [(0, 3, 7), (3, 1, 8), (3, 1, 9)] :=
  ⟨by decide +kernel, by decide +kernel, by decide +kernel⟩

example : GoodType true "real".toList ∧ GoodType false "pattern".toList := ⟨.inr ⟨rfl, .inr rfl⟩, .inl ⟨rfl, rfl⟩⟩

/-- What is written for an undirected list in the two formats. -/
example : (writeMM noVal 32 false true "pattern".toList (⟨12, false, [0], [10], [()]⟩ : EdgeList Unit) kwGeneral) =
    .ok "%%MatrixMarket matrix coordinate pattern general\n%%\n12 12 2\n1 11\n11 1\n".toList := by decide +kernel

example : (writeMM noVal 32 false true "pattern".toList (⟨12, false, [0], [10], [()]⟩ : EdgeList Unit) kwSymmetric) =
    .ok "%%MatrixMarket matrix coordinate pattern symmetric\n%%\n12 12 1\n1 11\n".toList := by decide +kernel

/-- A vector file. -/
example : DescribesVector ("%%MatrixMarket matrix array integer general".toList ++ '\n' :: ("2 1".toList ++ '\n' :: ("5".toList ++ '\n' :: "6".toList))) [5, 6] :=
  ⟨"%%MatrixMarket matrix array integer general".toList, [], "2 1".toList, ["5".toList, "6".toList],
    .cons (by decide +kernel) (.cons (by decide +kernel) (.cons (by decide +kernel) (.last (by decide +kernel) (by decide +kernel)))),
    ⟨"matrix".toList, "array".toList, "integer".toList, kwGeneral, by decide +kernel, .inr rfl⟩, by simp,
    ⟨['2'], ['1'], by decide +kernel, ⟨by decide +kernel, by decide +kernel, by decide +kernel⟩, ⟨by decide +kernel, by decide +kernel, by decide +kernel⟩⟩,
    .cons ⟨by decide +kernel, by decide +kernel, by decide +kernel⟩ (.cons ⟨by decide +kernel, by decide +kernel, by decide +kernel⟩ .nil)⟩

/-- A text with a blank line before the sizes. -/
example : readDirected noVal 32 "%%MatrixMarket matrix coordinate pattern general\n%x\n\n2 2 1\n1 2\n".toList = .error .uninitialised := by decide +kernel

example : readDirected noVal 32 "%%MatrixMarket matrix coordinate pattern hermitian\n2 2 1\n1 2\n".toList = .error .terminated := by decide +kernel

end NW.MM
