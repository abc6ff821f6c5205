import Verif.Props.Binary
import Verif.Model.BinaryShort

/-!
# C146: a saved file that was cut short

The file may end anywhere, as after a crash while it was being written.
-/

namespace NW.Bin

/-- A reader that succeeds on a stream either comes short on a beginning of it, or reads the same from the beginning and leaves the rest alone. -/
def Cuts {β : Type} (f : List UInt8 → Res (β × List UInt8)) : Prop :=
  ∀ s r x rest, f (s ++ r) = .ok (x, rest) → f s = .error .shortRead ∨ ∃ s', f s = .ok (x, s') ∧ rest = s' ++ r

theorem Cuts.step {β γ : Type} {f : List UInt8 → Res (β × List UInt8)} (hf : Cuts f) {s r : List UInt8} {k : β × List UInt8 → Res γ} {y : γ} (h : (f (s ++ r) >>= k) = .ok y) :
    f s = .error .shortRead ∨ ∃ x s', f s = .ok (x, s') ∧ f (s ++ r) = .ok (x, s' ++ r) := by
  cases hc : f (s ++ r) with
  | error e => rw [hc] at h; cases h
  | ok p =>
    obtain ⟨x, rest⟩ := p
    rcases hf s r x rest hc with h1 | ⟨s', h1, rfl⟩
    · exact .inl h1
    · exact .inr ⟨x, s', h1, rfl⟩

theorem short_bind {β γ : Type} (k : β → Res γ) : ((.error .shortRead : Res β) >>= k) = .error .shortRead := rfl

theorem cuts_readN (n : Nat) : Cuts (readN n) := by
  intro s r x rest h
  unfold readN at h ⊢
  by_cases c : n ≤ s.length
  · right
    rw [if_pos (by simp; omega)] at h
    cases h
    refine ⟨s.drop n, ?_, ?_⟩
    · rw [if_pos c, List.take_append_of_le_length c]
    · rw [List.drop_append_of_le_length c]
  · left
    rw [if_neg c]

theorem cuts_readInt (k : Nat) : Cuts (readInt k) := by
  intro s r x rest h
  unfold readInt at h ⊢
  rcases (cuts_readN k).step h with h1 | ⟨b, s', h1, h2⟩
  · exact .inl (by rw [h1]; rfl)
  · rw [h2] at h
    rw [h1]
    cases h
    exact .inr ⟨s', rfl, rfl⟩

theorem cuts_readCol (c : Col) : Cuts (readCol c) := by
  intro s r x rest h
  unfold readCol at h ⊢
  rcases (cuts_readInt 8).step h with h1 | ⟨st, s1, h1, h2⟩
  · exact .inl (by rw [h1]; rfl)
  rw [h2, res_bind_ok] at h
  rw [h1, res_bind_ok]
  dsimp only at h ⊢
  rcases (cuts_readInt 8).step h with h1 | ⟨el, s2, h1, h2⟩
  · exact .inl (by rw [h1]; rfl)
  rw [h2, res_bind_ok] at h
  rw [h1, res_bind_ok]
  dsimp only at h ⊢
  by_cases c1 : c.mem.length < st * el % 2 ^ 64
  · rw [if_pos c1] at h; cases h
  rw [if_neg c1] at h ⊢
  rcases (cuts_readN _).step h with h1 | ⟨b, s3, h1, h2⟩
  · exact .inl (by rw [h1]; rfl)
  rw [h2, res_bind_ok] at h
  rw [h1, res_bind_ok]
  cases h
  exact .inr ⟨s3, rfl, rfl⟩

theorem cuts_readCols (cs : List Col) : Cuts (readCols cs) := by
  induction cs with
  | nil =>
    intro s r x rest h
    cases h
    exact .inr ⟨s, rfl, rfl⟩
  | cons c cs ih =>
    intro s r x rest h
    unfold readCols at h ⊢
    rcases (cuts_readCol c).step h with h1 | ⟨c', s1, h1, h2⟩
    · exact .inl (by rw [h1]; rfl)
    rw [h2, res_bind_ok] at h
    rw [h1, res_bind_ok]
    dsimp only at h ⊢
    rcases ih.step h with h1 | ⟨cs', s2, h1, h2⟩
    · exact .inl (by rw [h1]; rfl)
    rw [h2, res_bind_ok] at h
    rw [h1, res_bind_ok]
    cases h
    exact .inr ⟨s2, rfl, rfl⟩

theorem cuts_readSoa (cs : List Col) : Cuts (readSoa cs) := by
  intro s r x rest h
  unfold readSoa at h ⊢
  rcases (cuts_readInt 8).step h with h1 | ⟨st, s1, h1, h2⟩
  · exact .inl (by rw [h1]; rfl)
  rw [h2, res_bind_ok] at h
  rw [h1, res_bind_ok]
  dsimp only at h ⊢
  rcases (cuts_readInt 8).step h with h1 | ⟨el, s2, h1, h2⟩
  · exact .inl (by rw [h1]; rfl)
  rw [h2, res_bind_ok] at h
  rw [h1, res_bind_ok]
  exact cuts_readCols _ _ _ _ _ h

/-- `readBase` with its two results as a pair. -/
theorem cuts_readBase (k : Nat) : ∀ s r ns b rest, readBase k (s ++ r) = .ok (ns, b, rest) → readBase k s = .error .shortRead ∨ ∃ s', readBase k s = .ok (ns, b, s') ∧ rest = s' ++ r := by
  induction k with
  | zero =>
    intro s r ns b rest h
    unfold readBase at h ⊢
    rcases (cuts_readInt 1).step h with h1 | ⟨x, s1, h1, h2⟩
    · exact .inl (by rw [h1]; rfl)
    rw [h2, res_bind_ok] at h
    rw [h1, res_bind_ok]
    cases h
    exact .inr ⟨s1, rfl, rfl⟩
  | succ k ih =>
    intro s r ns b rest h
    unfold readBase at h ⊢
    rcases (cuts_readInt 8).step h with h1 | ⟨x, s1, h1, h2⟩
    · exact .inl (by rw [h1]; rfl)
    rw [h2, res_bind_ok] at h
    rw [h1, res_bind_ok]
    dsimp only at h ⊢
    cases hb : readBase k (s1 ++ r) with
    | error e => rw [hb] at h; cases h
    | ok p =>
      obtain ⟨ns', b', rest'⟩ := p
      rw [hb, res_bind_ok] at h
      rcases ih _ _ _ _ _ hb with h1 | ⟨s2, h1, rfl⟩
      · exact .inl (by rw [h1]; rfl)
      rw [h1, res_bind_ok]
      cases h
      exact .inr ⟨s2, rfl, rfl⟩

theorem cuts_readEdgeList (t : EdgeListMem) : Cuts (readEdgeList t) := by
  intro s r x rest h
  unfold readEdgeList at h ⊢
  rcases (cuts_readN 27).step h with h1 | ⟨m, s1, h1, h2⟩
  · exact .inl (by rw [h1]; rfl)
  rw [h2, res_bind_ok] at h
  rw [h1, res_bind_ok]
  dsimp only at h ⊢
  rcases (cuts_readInt 4).step h with h1 | ⟨d, s2, h1, h2⟩
  · exact .inl (by rw [h1]; rfl)
  rw [h2, res_bind_ok] at h
  rw [h1, res_bind_ok]
  dsimp only at h ⊢
  cases hb : readBase t.cards.length (s2 ++ r) with
  | error e => rw [hb] at h; cases h
  | ok p =>
    obtain ⟨ns, b, rest'⟩ := p
    rw [hb, res_bind_ok] at h
    rcases cuts_readBase _ _ _ _ _ _ hb with h1 | ⟨s3, h1, rfl⟩
    · exact .inl (by rw [h1]; rfl)
    rw [h1, res_bind_ok]
    dsimp only at h ⊢
    rcases (cuts_readSoa _).step h with h1 | ⟨cols, s4, h1, h2⟩
    · exact .inl (by rw [h1]; rfl)
    rw [h2, res_bind_ok] at h
    rw [h1, res_bind_ok]
    cases h
    exact .inr ⟨s4, rfl, rfl⟩

theorem cuts_readCsr (k : Nat) (t : CsrMem) : Cuts (readCsr k t) := by
  intro s r x rest h
  unfold readCsr at h ⊢
  rcases (cuts_readN 34).step h with h1 | ⟨m, s1, h1, h2⟩
  · exact .inl (by rw [h1]; rfl)
  rw [h2, res_bind_ok] at h
  rw [h1, res_bind_ok]
  dsimp only at h ⊢
  rcases (cuts_readInt k).step h with h1 | ⟨n, s2, h1, h2⟩
  · exact .inl (by rw [h1]; rfl)
  rw [h2, res_bind_ok] at h
  rw [h1, res_bind_ok]
  dsimp only at h ⊢
  rcases (cuts_readN _).step h with h1 | ⟨a, s3, h1, h2⟩
  · exact .inl (by rw [h1]; rfl)
  rw [h2, res_bind_ok] at h
  rw [h1, res_bind_ok]
  dsimp only at h ⊢
  by_cases c1 : a ≠ t.after
  · rw [if_pos c1] at h; cases h
  rw [if_neg c1] at h ⊢
  rcases (cuts_readInt 8).step h with h1 | ⟨st, s4, h1, h2⟩
  · exact .inl (by rw [h1]; rfl)
  rw [h2, res_bind_ok] at h
  rw [h1, res_bind_ok]
  dsimp only at h ⊢
  rcases (cuts_readInt 8).step h with h1 | ⟨el, s5, h1, h2⟩
  · exact .inl (by rw [h1]; rfl)
  rw [h2, res_bind_ok] at h
  rw [h1, res_bind_ok]
  dsimp only at h ⊢
  by_cases c2 : (t.indices.resize st).mem.length < st * el % 2 ^ 64
  · rw [if_pos c2] at h; cases h
  rw [if_neg c2] at h ⊢
  rcases (cuts_readN _).step h with h1 | ⟨b, s6, h1, h2⟩
  · exact .inl (by rw [h1]; rfl)
  rw [h2, res_bind_ok] at h
  rw [h1, res_bind_ok]
  dsimp only at h ⊢
  rcases (cuts_readSoa _).step h with h1 | ⟨cols, s7, h1, h2⟩
  · exact .inl (by rw [h1]; rfl)
  rw [h2, res_bind_ok] at h
  rw [h1, res_bind_ok]
  cases h
  exact .inr ⟨s7, rfl, rfl⟩

/-- A reader that uses up a whole file comes short on every proper beginning of it. -/
theorem Cuts.short {β : Type} {f : List UInt8 → Res (β × List UInt8)} (hf : Cuts f) {file s : List UInt8} {x : β} (h : f file = .ok (x, [])) (hs : s <+: file) (hne : s ≠ file) :
    f s = .error .shortRead := by
  obtain ⟨r, rfl⟩ := hs
  rcases hf s r x [] h with h1 | ⟨s', -, h2⟩
  · exact h1
  · have : r = [] := (List.append_eq_nil_iff.1 h2.symm).2
    subst this
    exact absurd (List.append_nil s).symm hne

/-! ## The reads without checks do the same as the checked ones as long as no read comes short -/

theorem fillBytes_long {old s : List UInt8} (h : old.length ≤ s.length) : fillBytes old s = (s.take old.length, s.drop old.length) := by
  unfold fillBytes
  rw [List.drop_eq_nil_of_le h, List.append_nil]

theorem readN_eq {n : Nat} {s b s' : List UInt8} (h : readN n s = .ok (b, s')) : n ≤ s.length ∧ b = s.take n ∧ s' = s.drop n := by
  unfold readN at h
  split at h
  · rename_i c
    cases h
    exact ⟨c, rfl, rfl⟩
  · cases h

theorem readInt_eq {n x : Nat} {s s' : List UInt8} (h : readInt n s = .ok (x, s')) : n ≤ s.length ∧ x = unLe (s.take n) ∧ s' = s.drop n := by
  unfold readInt at h
  cases hr : readN n s with
  | error e => rw [hr] at h; cases h
  | ok p =>
    obtain ⟨b, t⟩ := p
    obtain ⟨h1, rfl, rfl⟩ := readN_eq hr
    rw [hr] at h
    cases h
    exact ⟨h1, rfl, rfl⟩

theorem bind_ok {β γ : Type} {m : Res β} {k : β → Res γ} {y : γ} (h : (m >>= k) = .ok y) : ∃ x, m = .ok x ∧ k x = .ok y := by
  cases m with
  | error e => cases h
  | ok x => exact ⟨x, rfl, h⟩

theorem loadSize_read {s s' : List UInt8} {x : Nat} (h : readInt 8 s = .ok (x, s')) : loadSize s = (x, s') := by
  obtain ⟨h1, rfl, rfl⟩ := readInt_eq h
  unfold loadSize
  rw [fillBytes_long (by simpa using h1)]
  rfl

theorem loadCol_read {c : Col} {s : List UInt8} {x : Col × List UInt8} (h : readCol c s = .ok x) : loadCol c s = .ok x := by
  unfold readCol at h
  obtain ⟨⟨st, s1⟩, h1, h⟩ := bind_ok h
  obtain ⟨⟨el, s2⟩, h2, h⟩ := bind_ok h
  dsimp only at h
  split at h
  · cases h
  rename_i c1
  obtain ⟨⟨b, s3⟩, h3, h⟩ := bind_ok h
  obtain ⟨h4, rfl, rfl⟩ := readN_eq h3
  cases h
  have hl : (s2.take (st * el % 2 ^ 64)).length = st * el % 2 ^ 64 := by rw [List.length_take]; omega
  unfold loadCol
  rw [loadSize_read h1]
  dsimp only
  rw [loadSize_read h2]
  dsimp only
  rw [hl, if_neg c1]

theorem loadCols_read {cs : List Col} : ∀ {s : List UInt8} {x : List Col × List UInt8}, readCols cs s = .ok x → loadCols cs s = .ok x := by
  induction cs with
  | nil => intro s x h; exact h
  | cons c cs ih =>
    intro s x h
    unfold readCols at h
    obtain ⟨⟨c', s1⟩, h1, h⟩ := bind_ok h
    obtain ⟨⟨cs', s2⟩, h2, h⟩ := bind_ok h
    cases h
    unfold loadCols
    rw [loadCol_read h1, res_bind_ok]
    dsimp only
    rw [ih h2]
    rfl

theorem loadSoa_read {cap : Nat} {cs : List Col} {s : List UInt8} {x : List Col × List UInt8} (h : readSoa cs s = .ok x) : loadSoa cap cs s = .ok x ∨ loadSoa cap cs s = .error .terminated := by
  unfold readSoa at h
  obtain ⟨⟨st, s1⟩, h1, h⟩ := bind_ok h
  obtain ⟨⟨el, s2⟩, h2, h⟩ := bind_ok h
  unfold loadSoa
  rw [loadSize_read h1]
  dsimp only
  rw [loadSize_read h2]
  split
  · exact .inr rfl
  · exact .inl (loadCols_read h)

theorem loadBase_read {k : Nat} : ∀ {s s' : List UInt8} {ns : List Nat} {b : Bool}, readBase k s = .ok (ns, b, s') → loadBase k s = .ok (ns, s') := by
  induction k with
  | zero =>
    intro s s' ns b h
    unfold readBase at h
    obtain ⟨⟨x, s1⟩, h1, h⟩ := bind_ok h
    obtain ⟨-, -, rfl⟩ := readInt_eq h1
    cases h
    rfl
  | succ k ih =>
    intro s s' ns b h
    unfold readBase at h
    obtain ⟨⟨x, s1⟩, h1, h⟩ := bind_ok h
    obtain ⟨h2, rfl, rfl⟩ := readInt_eq h1
    obtain ⟨⟨ns', b', s2⟩, h3, h⟩ := bind_ok h
    cases h
    unfold loadBase
    rw [if_neg (by omega)]
    simp only [pure, Except.pure, res_bind_ok]
    rw [ih h3]
    rfl

/-- What the two models have to do with each other. -/
theorem loadEdgeList_read {cap : Nat} {t : EdgeListMem} {s : List UInt8} {x : EdgeListMem × List UInt8} (h : readEdgeList t s = .ok x) :
    loadEdgeList cap t s = .ok x ∨ loadEdgeList cap t s = .error .terminated := by
  unfold readEdgeList at h
  obtain ⟨⟨m, s1⟩, h1, h⟩ := bind_ok h
  obtain ⟨-, -, rfl⟩ := readN_eq h1
  obtain ⟨⟨d, s2⟩, h2, h⟩ := bind_ok h
  obtain ⟨-, -, rfl⟩ := readInt_eq h2
  obtain ⟨⟨ns, b, s3⟩, h3, h⟩ := bind_ok h
  obtain ⟨⟨cols, s4⟩, h4, h⟩ := bind_ok h
  cases h
  unfold loadEdgeList
  rw [loadBase_read h3, res_bind_ok]
  dsimp only
  rcases loadSoa_read (cap := cap) h4 with h5 | h5
  · exact .inl (by rw [h5]; rfl)
  · exact .inr (by rw [h5]; rfl)

theorem loadCsr_read {cap : Nat} {t : CsrMem} {s : List UInt8} {x : CsrMem × List UInt8} (h : readCsr 8 t s = .ok x) : loadCsr cap t s = .ok x ∨ loadCsr cap t s = .error .terminated := by
  unfold readCsr at h
  obtain ⟨⟨m, s1⟩, h1, h⟩ := bind_ok h
  obtain ⟨-, -, rfl⟩ := readN_eq h1
  obtain ⟨⟨n, s2⟩, h2, h⟩ := bind_ok h
  obtain ⟨hn, rfl, rfl⟩ := readInt_eq h2
  obtain ⟨⟨a, s3⟩, h3, h⟩ := bind_ok h
  obtain ⟨-, -, rfl⟩ := readN_eq h3
  dsimp only at h
  split at h
  · cases h
  obtain ⟨⟨st, s4⟩, h4, h⟩ := bind_ok h
  obtain ⟨⟨el, s5⟩, h5, h⟩ := bind_ok h
  dsimp only at h
  split at h
  · cases h
  rename_i c1
  obtain ⟨⟨b, s6⟩, h6, h⟩ := bind_ok h
  obtain ⟨h7, rfl, rfl⟩ := readN_eq h6
  obtain ⟨⟨cols, s7⟩, h8, h⟩ := bind_ok h
  cases h
  have hl : (s5.take (st * el % 2 ^ 64)).length = st * el % 2 ^ 64 := by rw [List.length_take]; omega
  have h4' : readInt 8 ((s.drop 34).drop 8) = .ok (st, s4) := h4
  unfold loadCsr
  rw [fillBytes_long (by rw [le_length]; exact hn), le_length]
  dsimp only
  rw [loadSize_read h4']
  dsimp only
  rw [loadSize_read h5]
  dsimp only
  rw [hl, if_neg c1]
  split
  · exact .inr rfl
  · rcases loadSoa_read (cap := cap) h8 with h9 | h9
    · exact .inl (by rw [h9]; rfl)
    · exact .inr (by rw [h9]; rfl)

/-! ## The claims -/

/-- C146 for edge lists: if the file is cut short anywhere, loading it into any list with the same attributes runs into the end of the file.  Missing from the full statement: what the
code does after that, see the comment on C146 in DESIGN.md. -/
theorem edgelist_cut_short_partial {α : Type} (k d : Nat) (fs : List (Field α)) (el t : EdgeList α) (hd : d < 2 ^ 32) (hfs : FieldsOk fs) (hnum : fs.length + 2 < 2 ^ 64)
    (hel : InMemory k fs el) (s : List UInt8) (hs : s <+: writeEdgeList d (imageOf k fs el)) (hne : s ≠ writeEdgeList d (imageOf k fs el)) :
    readEdgeList (imageOf k fs t) s = .error .shortRead := by
  refine (cuts_readEdgeList _).short (x := imageOf k fs el.closeForPushBack) ?_ hs hne
  have := edgelist_binary_roundtrip k d fs el t [] hd hfs hnum hel
  rwa [List.append_nil] at this

/-- C146 for the compressed structure with 8 byte indices. -/
theorem csr_cut_short_partial (rows m : Nat) (g t : CsrMem) (hg : CsrInMemory 8 g rows m) (hta : t.after.length = 0) (hk : t.indices.elSize = 8)
    (he : t.cols.map (·.elSize) = g.cols.map (·.elSize)) (s : List UInt8) (hs : s <+: writeCsr 8 g) (hne : s ≠ writeCsr 8 g) : readCsr 8 t s = .error .shortRead := by
  refine (cuts_readCsr 8 t).short (x := g) ?_ hs hne
  have := csr_binary_roundtrip_index64 rows m g t [] hg hta hk he
  rwa [List.append_nil] at this

/-- 0 → 1, 1 → 2 with 4 byte ids and no attributes. -/
def exSaved : EdgeList Unit := ⟨3, false, [0, 1], [1, 2], [(), ()]⟩

theorem exSaved_inMemory : InMemory 4 [] exSaved := ⟨⟨rfl, rfl⟩, by decide, by decide, by decide, by decide, by decide, by decide, by simp⟩

/-- C146 is false of the code.  Without the last four bytes of its file, the list of the edges 0 → 1 and 1 → 2 is loaded, without any error, as that of the edges 0 → 1 and 1 → 0;
if only the first forty-eight bytes are left, which end after the number of edges, it is loaded as that of two edges 0 → 0; if only the first forty bytes are left, the number of edges is missing and an exception that nobody catches ends the program; and if only twenty are left, a variable is used that was never set. -/
theorem edgelist_cut_short_wrong :
    let file := writeEdgeList 0 (imageOf 4 [] exSaved)
    let fresh := imageOf 4 [] (⟨0, true, [], [], []⟩ : EdgeList Unit)
    loadEdgeList (2 ^ 60) fresh file = .ok (imageOf 4 [] exSaved, []) ∧
    loadEdgeList (2 ^ 60) fresh (file.take (file.length - 4)) = .ok (imageOf 4 [] { exSaved with col1 := [1, 0] }, []) ∧
    loadEdgeList (2 ^ 60) fresh (file.take 48) = .ok (imageOf 4 [] { exSaved with col0 := [0, 0], col1 := [0, 0] }, []) ∧
    loadEdgeList (2 ^ 60) fresh (file.take 40) = .error .terminated ∧
    loadEdgeList (2 ^ 60) fresh (file.take 20) = .error .uninitialised := by
  decide +kernel

theorem le_zero (k : Nat) : le k 0 = List.replicate k 0 := by
  induction k with
  | zero => rfl
  | succ k ih => simp [le, ih, List.replicate_succ]

theorem loadSize_append {n : Nat} {r : List UInt8} (h : n < 2 ^ 64) : loadSize (le 8 n ++ r) = (n, r) := loadSize_read (readInt_append h)

/-- The same for every edge list without attributes: if the last `j` elements of the file are missing, a new edge list loads it without an error, and the targets of the last `j` edges have
become 0. -/
theorem edgelist_cut_tail_wrong (cap k d : Nat) (el : EdgeList Unit) (hd : d < 2 ^ 32) (hel : InMemory k [] el) (hcap : el.size ≤ cap) (j : Nat) (hj : j ≤ el.size) :
    loadEdgeList cap (imageOf k [] (⟨0, true, [], [], []⟩ : EdgeList Unit))
        ((writeEdgeList d (imageOf k [] el)).take ((writeEdgeList d (imageOf k [] el)).length - j * k)) =
      .ok (imageOf k [] { el.closeForPushBack with col1 := el.col1.take (el.size - j) ++ List.replicate j 0 }, []) := by
  have g0 : (Col.ofNats k el.col0).Good el.size := goodNats hel.kpos hel.kfit rfl hel.fits
  have g1 : (Col.ofNats k el.col1).Good el.size := goodNats hel.kpos hel.kfit hel.wf.1 hel.fits
  have hn : el.size < 2 ^ 64 := g0.n_lt
  have hmod : el.size * k % 2 ^ 64 = el.size * k := Nat.mod_eq_of_lt hel.fits
  have hlen : ∀ l : List Nat, (l.flatMap (le k)).length = l.length * k := fun l => flatMap_length_const (fun a _ => le_length k a)
  have hl1 : el.col1.length = el.size := hel.wf.1
  generalize hP : edgeListMagic ++ (le 4 d ++ (writeBase [el.card] el.isOpen ++ (le 8 el.size ++ (le 8 2 ++ (writeCol (Col.ofNats k el.col0) ++ (le 8 el.size ++ (le 8 k ++
    (el.col1.take (el.size - j)).flatMap (le k)))))))) = P
  have hfile : writeEdgeList d (imageOf k [] el) = P ++ (el.col1.drop (el.size - j)).flatMap (le k) := by
    have h1 : writeCol (Col.ofNats k el.col1) = le 8 el.size ++ (le 8 k ++ ((el.col1.take (el.size - j)).flatMap (le k) ++ (el.col1.drop (el.size - j)).flatMap (le k))) := by
      rw [← List.flatMap_append, List.take_append_drop]
      unfold writeCol
      rw [g1.size]
      simp only [Col.ofNats, hmod, List.append_assoc]
      rw [List.take_of_length_le (by rw [hlen, hl1]; exact Nat.le_refl _)]
    rw [← hP]
    simp only [writeEdgeList, writeSoa, imageOf, List.map_nil, List.head?_cons, Option.map_some, Option.getD_some, g0.size, List.length_cons, List.length_nil, List.flatMap_cons,
      List.flatMap_nil, List.append_nil, h1, List.append_assoc]
  have hdrop : ((el.col1.drop (el.size - j)).flatMap (le k)).length = j * k := by
    rw [hlen, List.length_drop, hl1]
    congr 1
    omega
  rw [hfile, List.length_append, hdrop, Nat.add_sub_cancel, List.take_left' rfl, ← hP]
  have hb : ∀ r, loadBase 1 (writeBase [el.card] el.isOpen ++ r) = .ok ([el.card], r) := fun r =>
    loadBase_read (readBase_write (cards := [el.card]) (by simpa using hel.card))
  have hk64 : k < 2 ^ 64 := hel.kfit
  unfold loadEdgeList
  rw [List.drop_left' edgeListMagic_length, List.drop_left' (le_length 4 d)]
  change (loadBase 1 _ >>= _) = _
  rw [hb, res_bind_ok]
  dsimp only
  unfold loadSoa
  rw [loadSize_append hn]
  dsimp only
  rw [loadSize_append (by decide), if_neg (by omega)]
  simp only [imageOf, List.map_cons, List.map_nil, loadCols]
  rw [loadCol_read (readCol_writeCol (c' := (Col.ofNats k []).resize el.size) g0 rfl (by rw [resize_length, g0.len]; rfl)), res_bind_ok]
  dsimp only
  have hr : ((Col.ofNats k []).resize el.size) = ⟨k, List.replicate (el.size * k) 0⟩ := by simp [Col.resize, Col.ofNats]
  have hgot : ((el.col1.take (el.size - j)).flatMap (le k)).length = (el.size - j) * k := by
    rw [hlen, List.length_take, hl1]
    congr 1
    omega
  have hle : (el.size - j) * k ≤ el.size * k := Nat.mul_le_mul_right _ (by omega)
  have hz : ∀ i : Nat, (List.replicate i 0).flatMap (le k) = List.replicate (i * k) 0 := by
    intro i
    have h0 : le k 0 = List.replicate k 0 := le_zero k
    induction i with
    | zero => simp
    | succ i ih => rw [List.replicate_succ, List.flatMap_cons, ih, h0, List.replicate_append_replicate, Nat.add_comm, ← Nat.succ_mul]
  have hlast : loadCol ((Col.ofNats k []).resize el.size) (le 8 el.size ++ (le 8 k ++ (el.col1.take (el.size - j)).flatMap (le k))) =
      .ok (Col.ofNats k (el.col1.take (el.size - j) ++ List.replicate j 0), []) := by
    unfold loadCol
    rw [loadSize_append hn]
    dsimp only
    rw [loadSize_append hk64]
    dsimp only
    rw [hmod, List.take_of_length_le (by omega), List.drop_eq_nil_of_le (as := (el.col1.take (el.size - j)).flatMap (le k)) (i := el.size * k) (by omega), hr]
    dsimp only
    rw [List.length_replicate, if_neg (by omega), hgot, List.drop_replicate]
    congr 2
    unfold Col.ofNats
    rw [List.flatMap_append, hz]
    congr 3
    rw [← Nat.sub_mul]
    congr 1
    omega
  rw [hlast]
  rfl

/-- A case of `edgelist_cut_tail_wrong`. -/
example : loadEdgeList 100 (imageOf 4 [] (⟨0, true, [], [], []⟩ : EdgeList Unit)) ((writeEdgeList 0 (imageOf 4 [] exSaved)).take ((writeEdgeList 0 (imageOf 4 [] exSaved)).length - 1 * 4)) =
    .ok (imageOf 4 [] { exSaved with col1 := [1, 0] }, []) :=
  edgelist_cut_tail_wrong 100 4 0 exSaved (by decide) exSaved_inMemory (by decide) 1 (by decide)

/-- A case of `edgelist_cut_short_partial`: the same file, at any length. -/
example (i : Nat) (hi : i < (writeEdgeList 0 (imageOf 4 [] exSaved)).length) (t : EdgeList Unit) : readEdgeList (imageOf 4 [] t) ((writeEdgeList 0 (imageOf 4 [] exSaved)).take i) = .error .shortRead := by
  refine edgelist_cut_short_partial 4 0 [] exSaved t (by decide) (by simp [FieldsOk]) (by decide) exSaved_inMemory _ (List.take_prefix _ _) fun h => ?_
  have := congrArg List.length h
  rw [List.length_take] at this
  omega

/-- C146 is false of the compressed structure as well.  0 → 1, 1 → 0, 1 → 1: without the last four bytes the last edge becomes 1 → 0; with only the first seventy-eight bytes, which end in the
middle of the last index, the neighbours are missing and an exception that nobody catches ends the program; and an old structure keeps its own neighbours if the file ends right before the
new ones. -/
theorem csr_cut_short_wrong :
    let g : CsrMem := ⟨2, [], Col.ofNats 8 [0, 1, 3], [Col.ofNats 4 [1, 0, 1]]⟩
    let fresh : CsrMem := ⟨0, [], Col.ofNats 8 [], [Col.ofNats 4 []]⟩
    let old : CsrMem := ⟨3, [], Col.ofNats 8 [0, 1, 2, 3], [Col.ofNats 4 [2, 2, 2]]⟩
    let file := writeCsr 8 g
    loadCsr (2 ^ 60) fresh file = .ok (g, []) ∧
    loadCsr (2 ^ 60) fresh (file.take (file.length - 4)) = .ok ({ g with cols := [Col.ofNats 4 [1, 0, 0]] }, []) ∧
    loadCsr (2 ^ 60) fresh (file.take 78) = .error .terminated ∧
    loadCsr (2 ^ 60) old (file.take (file.length - 12)) = .ok ({ g with cols := [Col.ofNats 4 [2, 2, 2]] }, []) := by
  decide +kernel

/-- A case of `csr_cut_short_partial`. -/
example (i : Nat) (hi : i < (writeCsr 8 ⟨2, [], Col.ofNats 8 [0, 1, 3], [Col.ofNats 4 [1, 0, 1]]⟩).length) :
    readCsr 8 ⟨0, [], Col.ofNats 8 [0], [Col.ofNats 4 []]⟩ ((writeCsr 8 ⟨2, [], Col.ofNats 8 [0, 1, 3], [Col.ofNats 4 [1, 0, 1]]⟩).take i) = .error .shortRead := by
  refine csr_cut_short_partial 3 3 ⟨2, [], Col.ofNats 8 [0, 1, 3], [Col.ofNats 4 [1, 0, 1]]⟩ ⟨0, [], Col.ofNats 8 [0], [Col.ofNats 4 []]⟩ ⟨by decide, goodNats (by decide) (by decide) rfl (by decide), rfl, rfl, by decide, by decide, ?_⟩ rfl rfl rfl _ (List.take_prefix _ _) fun h => ?_
  · intro c hc
    simp only [List.mem_singleton] at hc
    subst hc
    exact goodNats (by decide) (by decide) rfl (by decide)
  · have := congrArg List.length h
    rw [List.length_take] at this
    omega

end NW.Bin
