import Verif.Lemmas.Binary
import Verif.Props.EdgeList

/-!
# C03, C05: binary save and load

`imageOf k fs el` is the memory of an edge list with `k`-byte vertex ids and attributes `fs`; it determines the
edge list (`imageOf_injective`), so equality of images is equality of edge lists.
-/

namespace NW.Bin
variable {α : Type}

/-- The attributes are trivially copyable objects of positive, fixed size. -/
def FieldsOk (fs : List (Field α)) : Prop :=
  ∀ f ∈ fs, 0 < f.size ∧ f.size < 2 ^ 64 ∧ ∀ a, (f.enc a).length = f.size

/-- The attributes together determine the attribute tuple. -/
def FieldsFaithful (fs : List (Field α)) : Prop :=
  ∀ a b : α, (∀ f ∈ fs, f.enc a = f.enc b) → a = b

/-- The edge list is one that exists in memory: ids of `k` bytes, columns of equal length that fit the
address space, cardinality of type `size_t`. -/
structure InMemory (k : Nat) (fs : List (Field α)) (el : EdgeList α) : Prop where
  wf : el.Wf
  kpos : 0 < k
  kfit : k < 2 ^ 64
  card : el.card < 2 ^ 64
  ids0 : ∀ x ∈ el.col0, x < 256 ^ k
  ids1 : ∀ x ∈ el.col1, x < 256 ^ k
  fits : el.size * k < 2 ^ 64
  fitsA : ∀ f ∈ fs, el.size * f.size < 2 ^ 64

theorem goodNats {k n : Nat} {xs : List Nat} (hk : 0 < k) (hk' : k < 2 ^ 64) (hl : xs.length = n)
    (hf : n * k < 2 ^ 64) : (Col.ofNats k xs).Good n := by
  have : (xs.flatMap (le k)).length = n * k := by
    rw [flatMap_length_const (fun a _ => le_length k a), hl]
  exact ⟨hk, this, by simp only [Col.ofNats]; omega, hk'⟩

theorem goodField {f : Field α} {n : Nat} {as : List α} (h : 0 < f.size ∧ f.size < 2 ^ 64 ∧ ∀ a, (f.enc a).length = f.size)
    (hl : as.length = n) (hf : n * f.size < 2 ^ 64) : (Col.ofField f as).Good n := by
  have : (as.flatMap f.enc).length = n * f.size := by
    rw [flatMap_length_const (fun a _ => h.2.2 a), hl]
  exact ⟨h.1, this, by simp only [Col.ofField]; omega, h.2.1⟩

/-- C03. Reading the bytes written for an edge list, with any bytes `rest` behind them, into any existing edge
list `t` of the same type gives back the edge list (closed), and leaves exactly `rest`. -/
theorem edgelist_binary_roundtrip (k d : Nat) (fs : List (Field α)) (el t : EdgeList α) (rest : List UInt8)
    (hd : d < 2 ^ 32) (hfs : FieldsOk fs) (hnum : fs.length + 2 < 2 ^ 64) (hel : InMemory k fs el) :
    readEdgeList (imageOf k fs t) (writeEdgeList d (imageOf k fs el) ++ rest) =
      .ok (imageOf k fs el.closeForPushBack, rest) := by
  have := readEdgeList_write (d := d) (el := imageOf k fs el) (t := imageOf k fs t) (n := el.size) (r := rest) hd
    (by simp [imageOf, hel.card]) rfl (by simp [imageOf]) (by simpa [imageOf] using hnum)
    (by
      intro c hc
      simp only [imageOf, List.mem_cons, List.mem_map] at hc
      rcases hc with rfl | rfl | ⟨f, hf, rfl⟩
      · exact goodNats hel.kpos hel.kfit rfl hel.fits
      · exact goodNats hel.kpos hel.kfit hel.wf.1 hel.fits
      · exact goodField (hfs f hf) hel.wf.2 (hel.fitsA f hf))
    (by simp [imageOf, Col.ofNats, Col.ofField, Function.comp_def])
  exact this

theorem ofNats_inj {k : Nat} {xs ys : List Nat} (hk : 0 < k) (hx : ∀ x ∈ xs, x < 256 ^ k)
    (hy : ∀ x ∈ ys, x < 256 ^ k) (h : Col.ofNats k xs = Col.ofNats k ys) : xs = ys := by
  have h1 : xs.flatMap (le k) = ys.flatMap (le k) := by injection h
  have hl : xs.length = ys.length := by
    have := congrArg List.length h1
    rw [flatMap_length_const (fun a _ => le_length k a), flatMap_length_const (fun a _ => le_length k a)] at this
    exact Nat.eq_of_mul_eq_mul_right hk this
  have h2 := flatMap_inj_const hl (fun a _ => le_length k a) (fun a _ => le_length k a) h1
  have h3 := congrArg (List.map unLe) h2
  simp only [List.map_map] at h3
  have hid : ∀ l : List Nat, (∀ x ∈ l, x < 256 ^ k) → l.map (unLe ∘ le k) = l := by
    intro l hl
    conv => rhs; rw [← List.map_id l]
    exact List.map_congr_left (fun x hx => by simp [unLe_le k x (hl x hx)])
  rwa [hid xs hx, hid ys hy] at h3

/-- The memory image determines the edge list: same vertex count, open flag, edges, attributes, order. -/
theorem imageOf_injective (k : Nat) (fs : List (Field α)) (el el' : EdgeList α) (hfs : FieldsOk fs)
    (hff : FieldsFaithful fs) (h1 : InMemory k fs el) (h2 : InMemory k fs el')
    (h : imageOf k fs el = imageOf k fs el') : el = el' := by
  simp only [imageOf, EdgeListMem.mk.injEq, List.cons.injEq, and_true] at h
  obtain ⟨hc, ho, h0, h1', ha⟩ := h
  have e0 := ofNats_inj h1.kpos h1.ids0 h2.ids0 h0
  have e1 := ofNats_inj h1.kpos h1.ids1 h2.ids1 h1'
  have hl : el.attrs.length = el'.attrs.length := by rw [h1.wf.2, h2.wf.2, e0]
  have ea : el.attrs = el'.attrs := by
    apply List.ext_getElem hl
    intro i hi hi'
    apply hff
    intro f hf
    have hcol : Col.ofField f el.attrs = Col.ofField f el'.attrs := by
      exact List.map_inj_left.1 ha f hf
    have hm : el.attrs.flatMap f.enc = el'.attrs.flatMap f.enc := by injection hcol
    have := flatMap_inj_const hl (fun a _ => (hfs f hf).2.2 a) (fun a _ => (hfs f hf).2.2 a) hm
    have h3 := congrArg (·[i]?) this
    simpa [hi, hi'] using h3
  cases el; cases el'; simp_all

/-- C03 for bipartite edge lists. -/
theorem biedgelist_binary_roundtrip (k d : Nat) (fs : List (Field α)) (el t : BiEdgeList α) (rest : List UInt8)
    (hd : d < 2 ^ 32) (hfs : FieldsOk fs) (hnum : fs.length + 2 < 2 ^ 64) (hk : 0 < k) (hk' : k < 2 ^ 64)
    (h0 : el.card0 < 2 ^ 64) (h1 : el.card1 < 2 ^ 64) (hl1 : el.col1.length = el.size)
    (hla : el.attrs.length = el.size) (hf : el.size * k < 2 ^ 64) (hfa : ∀ f ∈ fs, el.size * f.size < 2 ^ 64) :
    readEdgeList (imageOfBi k fs t) (writeEdgeList d (imageOfBi k fs el) ++ rest) =
      .ok (imageOfBi k fs { el with isOpen := false }, rest) := by
  have := readEdgeList_write (d := d) (el := imageOfBi k fs el) (t := imageOfBi k fs t) (n := el.size) (r := rest) hd
    (by simp [imageOfBi, h0, h1]) rfl (by simp [imageOfBi]) (by simpa [imageOfBi] using hnum)
    (by
      intro c hc
      simp only [imageOfBi, List.mem_cons, List.mem_map] at hc
      rcases hc with rfl | rfl | ⟨f, hf', rfl⟩
      · exact goodNats hk hk' rfl hf
      · exact goodNats hk hk' hl1 hf
      · exact goodField (hfs f hf') hla (hfa f hf'))
    (by simp [imageOfBi, Col.ofNats, Col.ofField, Function.comp_def])
  exact this

/-- A concrete case: 4-byte ids and two attributes of 1 and 2 bytes. -/
example : FieldsOk [⟨1, fun a : Nat × Nat => le 1 a.1⟩, ⟨2, fun a => le 2 a.2⟩] ∧
    InMemory 4 [⟨1, fun a : Nat × Nat => le 1 a.1⟩, ⟨2, fun a => le 2 a.2⟩]
      ⟨6, true, [0, 5], [5, 3], [(1, 1000), (2, 2000)]⟩ := by
  refine ⟨?_, ⟨⟨rfl, rfl⟩, by decide, by decide, by decide, by decide, by decide, by decide, ?_⟩⟩
  · intro f hf
    simp only [List.mem_cons, List.not_mem_nil, or_false] at hf
    rcases hf with rfl | rfl <;> exact ⟨by decide, by decide, fun a => le_length _ _⟩
  · intro f hf
    simp only [List.mem_cons, List.not_mem_nil, or_false] at hf
    rcases hf with rfl | rfl <;> decide

/-! ## C05 -/

/-- A compressed structure that exists in memory: `n` and offsets of `k` bytes, all columns of one length. -/
structure CsrInMemory (k : Nat) (g : CsrMem) (rows m : Nat) : Prop where
  nfit : g.n < 256 ^ k
  ind : g.indices.Good rows
  elk : g.indices.elSize = k
  after : g.after.length = 8 - k
  ne : g.cols ≠ []
  num : g.cols.length < 2 ^ 64
  cols : ∀ c ∈ g.cols, c.Good m

theorem readCsr_write {k rows m : Nat} {g t : CsrMem} {r : List UInt8} (hg : CsrInMemory k g rows m)
    (hk : t.indices.elSize = k) (he : t.cols.map (·.elSize) = g.cols.map (·.elSize)) :
    readCsr k t (writeCsr k g ++ r) =
      if g.after ≠ t.after then .error .memoryClobbered else .ok (g, r) := by
  have hm : rows * k % 2 ^ 64 = g.indices.mem.length := by
    rw [← hg.elk, ← hg.ind.len]; exact Nat.mod_eq_of_lt hg.ind.fits
  have h1 : rows < 256 ^ 8 := hg.ind.n_lt
  have h2 : k < 256 ^ 8 := by have := hg.ind.fitsEl; rw [hg.elk] at this; exact this
  have hr : (t.indices.resize rows).mem.length = g.indices.mem.length := by
    rw [resize_length, hk, hg.ind.len, hg.elk]
  simp only [readCsr, writeCsr, List.append_assoc, readN_append csrMagic_length, res_bind_ok,
    readInt_append hg.nfit, readN_append hg.after, hg.ind.size, hm, List.take_length]
  split
  · next h => rfl
  · next h =>
    simp only [readInt_append h1, readInt_append h2, res_bind_ok, hm, hr, Nat.lt_irrefl, if_false,
      readN_append rfl, readSoa_write hg.ne hg.num hg.cols he, res_pure]
    congr 2
    have : List.drop g.indices.mem.length (t.indices.resize rows).mem = [] :=
      List.drop_eq_nil_of_le (by omega)
    have hel : (t.indices.resize rows).elSize = g.indices.elSize := by
      rw [hg.elk]; exact hk
    have ha : t.after = g.after := (Decidable.not_not.1 h).symm
    rw [this, List.append_nil, hel, ha]

/-- C05 for 8-byte index types: saving and loading is the identity, whatever the target held before and
whatever follows in the file. -/
theorem csr_binary_roundtrip_index64 (rows m : Nat) (g t : CsrMem) (rest : List UInt8)
    (hg : CsrInMemory 8 g rows m) (hta : t.after.length = 0) (hk : t.indices.elSize = 8)
    (he : t.cols.map (·.elSize) = g.cols.map (·.elSize)) :
    readCsr 8 t (writeCsr 8 g ++ rest) = .ok (g, rest) := by
  rw [readCsr_write hg hk he]
  have h1 : g.after = [] := List.eq_nil_of_length_eq_zero hg.after
  have h2 : t.after = [] := List.eq_nil_of_length_eq_zero hta
  simp [h1, h2]

/-- C05 (partial, 4-byte index types): the round trip is the identity if the begin pointers of the two offset
vectors happen to agree in their low four bytes; otherwise loading corrupts the vector `indices_`.
Missing for the full C05: 4-byte index types (the default) with arbitrary memory, where the claim is false. -/
theorem csr_binary_roundtrip_index32_partial (rows m : Nat) (g t : CsrMem) (rest : List UInt8)
    (hg : CsrInMemory 4 g rows m) (hk : t.indices.elSize = 4)
    (he : t.cols.map (·.elSize) = g.cols.map (·.elSize)) :
    (t.after = g.after → readCsr 4 t (writeCsr 4 g ++ rest) = .ok (g, rest)) ∧
    (t.after ≠ g.after → readCsr 4 t (writeCsr 4 g ++ rest) = .error .memoryClobbered) := by
  rw [readCsr_write hg hk he]
  constructor
  · intro h; simp [h]
  · intro h; rw [if_pos (fun e => h e.symm)]

/-- C05 fails for 4-byte index types: loading a one-row structure saved by another process whose
offset vector lived at another address corrupts the target. -/
theorem csr_binary_index32_clobbers :
    ∃ g t : CsrMem, CsrInMemory 4 g 2 1 ∧ CsrInMemory 4 t 2 1 ∧
      readCsr 4 t (writeCsr 4 g) = .error .memoryClobbered := by
  refine ⟨⟨1, [1, 0, 0, 16], Col.ofNats 4 [0, 1], [Col.ofNats 4 [0]]⟩,
    ⟨1, [1, 0, 0, 32], Col.ofNats 4 [0, 1], [Col.ofNats 4 [0]]⟩, ?_, ?_, by decide +kernel⟩ <;>
  · refine ⟨by decide, goodNats (by decide) (by decide) rfl (by decide), rfl, rfl, by decide, by decide, ?_⟩
    intro c hc
    simp only [List.mem_singleton] at hc
    subst hc
    exact goodNats (by decide) (by decide) rfl (by decide)

/-- The same through the adjacency classes, which put the cardinalities in front. -/
theorem adjacency_binary_roundtrip_index64 (rows m : Nat) (cards : List Nat) (o : Bool) (g t : CsrMem)
    (rest : List UInt8) (hc : ∀ n ∈ cards, n < 2 ^ 64)
    (hg : CsrInMemory 8 g rows m) (hta : t.after.length = 0) (hk : t.indices.elSize = 8)
    (he : t.cols.map (·.elSize) = g.cols.map (·.elSize)) :
    readAdjacency 8 cards.length t (writeAdjacency 8 cards o g ++ rest) = .ok (cards, o, g, rest) := by
  simp only [readAdjacency, writeAdjacency, List.append_assoc, readBase_write hc, res_bind_ok,
    csr_binary_roundtrip_index64 rows m g t rest hg hta hk he, res_pure]

/-- Concrete structures meeting the hypotheses of the positive theorems. -/
example : CsrInMemory 8 ⟨2, [], Col.ofNats 8 [0, 1, 3], [Col.ofNats 4 [1, 0, 1]]⟩ 3 3 := by
  refine ⟨by decide, goodNats (by decide) (by decide) rfl (by decide), rfl, rfl, by decide, by decide, ?_⟩
  intro c hc
  simp only [List.mem_singleton] at hc
  subst hc
  exact goodNats (by decide) (by decide) rfl (by decide)

end NW.Bin
