import Verif.Model.Binary

/-! Helper lemmas for the binary format. -/

namespace NW.Bin

theorem le_length (k n : Nat) : (le k n).length = k := by
  induction k generalizing n with
  | zero => rfl
  | succ k ih => simp [le, ih]

theorem unLe_le (k n : Nat) (h : n < 256 ^ k) : unLe (le k n) = n := by
  induction k generalizing n with
  | zero => simp at h; simp [le, unLe, h]
  | succ k ih =>
    have h1 : n / 256 < 256 ^ k := by
      rw [Nat.pow_succ] at h
      exact Nat.div_lt_of_lt_mul (by omega)
    simp only [le, unLe, ih _ h1]
    have : (UInt8.ofNat (n % 256)).toNat = n % 256 := by simp
    rw [this]; omega

theorem readN_append {n : Nat} {a r : List UInt8} (h : a.length = n) :
    readN n (a ++ r) = .ok (a, r) := by
  subst h; simp [readN]

theorem readInt_append {k n : Nat} {r : List UInt8} (h : n < 256 ^ k) :
    readInt k (le k n ++ r) = .ok (n, r) := by
  simp [readInt, readN_append (le_length k n), unLe_le k n h]

/-- A column whose memory is a whole number of elements and fits the address space. -/
structure Col.Good (c : Col) (n : Nat) : Prop where
  pos : 0 < c.elSize
  len : c.mem.length = n * c.elSize
  fits : c.mem.length < 2 ^ 64
  fitsEl : c.elSize < 2 ^ 64

theorem Col.Good.size {c : Col} {n : Nat} (h : c.Good n) : c.size = n := by
  rw [Col.size, h.len, Nat.mul_div_cancel _ h.pos]

theorem Col.Good.n_lt {c : Col} {n : Nat} (h : c.Good n) : n < 2 ^ 64 := by
  have := h.fits
  rw [h.len] at this
  have h1 := Nat.le_mul_of_pos_right n h.pos
  omega

theorem readCol_writeCol {c c' : Col} {n : Nat} {r : List UInt8} (h : c.Good n)
    (he : c'.elSize = c.elSize) (hl : c'.mem.length = c.mem.length) :
    readCol c' (writeCol c ++ r) = .ok (c, r) := by
  have hm : n * c.elSize % 2 ^ 64 = c.mem.length := by
    rw [← h.len]; exact Nat.mod_eq_of_lt h.fits
  have h1 : n < 256 ^ 8 := h.n_lt
  have h2 : c.elSize < 256 ^ 8 := h.fitsEl
  simp only [readCol, writeCol, h.size, hm, List.append_assoc, readInt_append h1, readInt_append h2,
    res_bind_ok, hl, Nat.lt_irrefl, if_false, List.take_length]
  rw [readN_append rfl]
  simp only [res_bind_ok, res_pure]
  congr 2
  cases c; cases c'
  simp_all

theorem resize_length (c : Col) (n : Nat) : (c.resize n).mem.length = n * c.elSize := by
  simp [Col.resize]; omega

theorem readCols_write {cols : List Col} {ts : List Col} {n : Nat} {r : List UInt8}
    (h : ∀ c ∈ cols, c.Good n) (he : ts.map (·.elSize) = cols.map (·.elSize)) :
    readCols (ts.map (·.resize n)) (cols.flatMap writeCol ++ r) = .ok (cols, r) := by
  induction cols generalizing ts with
  | nil =>
    have : ts = [] := by simpa using he
    subst this; rfl
  | cons c cs ih =>
    cases ts with
    | nil => simp at he
    | cons t ts =>
      simp only [List.map_cons, List.cons.injEq] at he
      have hc := h c (by simp)
      have e1 : (t.resize n).elSize = c.elSize := he.1
      simp only [List.map_cons, readCols, List.flatMap_cons, List.append_assoc]
      rw [readCol_writeCol hc e1 (by rw [resize_length, hc.len, he.1])]
      simp [ih (fun x hx => h x (by simp [hx])) he.2]

theorem readSoa_write {cols ts : List Col} {n : Nat} {r : List UInt8}
    (hne : cols ≠ []) (hlen : cols.length < 2 ^ 64)
    (h : ∀ c ∈ cols, c.Good n) (he : ts.map (·.elSize) = cols.map (·.elSize)) :
    readSoa ts (writeSoa cols ++ r) = .ok (cols, r) := by
  cases hc : cols with
  | nil => exact absurd hc hne
  | cons c cs =>
    have hg := h c (by simp [hc])
    have h1 : n < 256 ^ 8 := hg.n_lt
    have h2 : (c :: cs).length < 256 ^ 8 := by rw [← hc]; exact hlen
    simp only [readSoa, writeSoa, List.head?_cons, Option.map_some, Option.getD_some, hg.size,
      List.append_assoc, readInt_append h1, readInt_append h2, res_bind_ok]
    exact readCols_write (hc ▸ h) (hc ▸ he)

theorem readBase_write {cards : List Nat} {o : Bool} {r : List UInt8} (h : ∀ n ∈ cards, n < 2 ^ 64) :
    readBase cards.length (writeBase cards o ++ r) = .ok (cards, o, r) := by
  induction cards with
  | nil => cases o <;> simp [readBase, writeBase, readInt, readN, unLe]
  | cons n ns ih =>
    have h1 : n < 256 ^ 8 := h n (by simp)
    have := ih (fun m hm => h m (by simp [hm]))
    simp only [writeBase, List.append_assoc] at this
    simp only [writeBase, List.flatMap_cons, List.append_assoc, List.length_cons, readBase,
      readInt_append h1, res_bind_ok, this, res_pure]

theorem edgeListMagic_length : edgeListMagic.length = 27 := by decide

theorem csrMagic_length : csrMagic.length = 34 := by decide

theorem readEdgeList_write {d : Nat} {el t : EdgeListMem} {n : Nat} {r : List UInt8} (hd : d < 2 ^ 32)
    (hc : ∀ n ∈ el.cards, n < 2 ^ 64) (hct : t.cards.length = el.cards.length)
    (hne : el.cols ≠ []) (hlen : el.cols.length < 2 ^ 64) (h : ∀ c ∈ el.cols, c.Good n)
    (he : t.cols.map (·.elSize) = el.cols.map (·.elSize)) :
    readEdgeList t (writeEdgeList d el ++ r) = .ok ({ el with isOpen := false }, r) := by
  have h4 : d < 256 ^ 4 := hd
  simp only [readEdgeList, writeEdgeList, List.append_assoc, readN_append edgeListMagic_length, res_bind_ok,
    readInt_append h4, hct, readBase_write hc, readSoa_write hne hlen h he, res_pure]

theorem flatMap_length_const {β : Type} {f : β → List UInt8} {k : Nat} {l : List β}
    (h : ∀ a ∈ l, (f a).length = k) : (l.flatMap f).length = l.length * k := by
  induction l with
  | nil => simp
  | cons x xs ih =>
    rw [List.flatMap_cons, List.length_append, h x (by simp), ih (fun a ha => h a (by simp [ha])),
      List.length_cons, Nat.succ_mul, Nat.add_comm]

theorem flatMap_inj_const {β : Type} {f : β → List UInt8} {k : Nat} {l l' : List β}
    (hl : l.length = l'.length) (hf : ∀ a ∈ l, (f a).length = k) (hf' : ∀ a ∈ l', (f a).length = k)
    (h : l.flatMap f = l'.flatMap f) : l.map f = l'.map f := by
  induction l generalizing l' with
  | nil =>
    cases l' with
    | nil => rfl
    | cons y ys => simp at hl
  | cons x xs ih =>
    cases l' with
    | nil => simp at hl
    | cons y ys =>
      simp only [List.flatMap_cons] at h
      have h1 := hf x (by simp)
      have h2 := hf' y (by simp)
      obtain ⟨a, b⟩ := List.append_inj h (by omega)
      simp only [List.map_cons, a]
      rw [ih (by simpa using hl) (fun z hz => hf z (by simp [hz])) (fun z hz => hf' z (by simp [hz])) b]

end NW.Bin
