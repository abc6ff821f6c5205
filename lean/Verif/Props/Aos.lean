import Verif.Model.Aos
import Verif.Lemmas.Binary
import Mathlib.Data.List.Basic

/-!
# C122: arrays of structs are saved and compared as they are; C123: histogram counts
-/

namespace NW.Aos

variable {τ σ : Type}

/-- Tuples have a positive size and can be read back from their bytes. -/
structure Layout.Ok (L : Layout τ) : Prop where
  pos : 0 < L.size
  fits : L.size < 2 ^ 64
  len : ∀ x, (L.enc x).length = L.size
  dec : ∀ x, L.dec (L.enc x) = x

theorem image_length {L : Layout τ} (hL : L.Ok) (xs : List τ) : (image L xs).mem.length = xs.length * L.size :=
  Bin.flatMap_length_const fun a _ => hL.len a

theorem image_size {L : Layout τ} (hL : L.Ok) (xs : List τ) : (image L xs).size = xs.length := by
  unfold Bin.Col.size
  rw [image_length hL]
  exact Nat.mul_div_cancel _ hL.pos

theorem drop_take {L : Layout τ} (hL : L.Ok) (xs : List τ) : ∀ i (hi : i < xs.length), ((xs.flatMap L.enc).drop (i * L.size)).take L.size = L.enc xs[i] := by
  induction xs with
  | nil => intro i hi; simp at hi
  | cons x xs ih =>
    intro i hi
    cases i with
    | zero => simp [hL.len]
    | succ i =>
      have : (i + 1) * L.size = (L.enc x).length + i * L.size := by rw [hL.len, Nat.add_mul]; omega
      rw [List.flatMap_cons, this, ← List.drop_drop, List.drop_left]
      exact ih i (by simpa using hi)

theorem elements_image {L : Layout τ} (hL : L.Ok) (xs : List τ) : elements L (image L xs) = xs := by
  unfold elements
  rw [image_size hL]
  refine List.ext_getElem (by simp) fun i hi hi' => ?_
  rw [List.getElem_map, List.getElem_range]
  show L.dec (((xs.flatMap L.enc).drop (i * L.size)).take L.size) = _
  rw [drop_take hL xs i hi', hL.dec]

/-- What `deserialize` does with what `serialize` has written, for arrays of any types. -/
theorem deserialize_serialize {L : Layout τ} {M : Layout σ} (hL : L.Ok) (xs : List τ) (ys : List σ) (rest : List UInt8) (hx : xs.length * L.size < 2 ^ 64) :
    deserialize (image M ys) (serialize (image L xs) ++ rest) =
      if xs.length * M.size < xs.length * L.size then .error .memoryClobbered
      else .ok (⟨M.size, xs.flatMap L.enc ++ ((image M ys).resize xs.length).mem.drop (xs.length * L.size)⟩, rest) := by
  have hn : xs.length < 256 ^ 8 := by
    have := Nat.le_mul_of_pos_right xs.length hL.pos
    show xs.length < 2 ^ 64
    omega
  have hs : L.size < 256 ^ 8 := hL.fits
  have hm : xs.length * L.size % 2 ^ 64 = xs.length * L.size := Nat.mod_eq_of_lt hx
  have hlen : (xs.flatMap L.enc).length = xs.length * L.size := image_length hL xs
  have e : serialize (image L xs) ++ rest = Bin.le 8 xs.length ++ (Bin.le 8 L.size ++ (xs.flatMap L.enc ++ rest)) := by
    unfold serialize
    rw [image_size hL]
    show Bin.le 8 xs.length ++ Bin.le 8 L.size ++ (xs.flatMap L.enc).take (xs.length * L.size % 2 ^ 64) ++ rest = _
    rw [hm, List.take_of_length_le (by rw [← hlen]; exact Nat.le_refl _)]
    simp
  unfold deserialize
  rw [e, Bin.readInt_append hn, res_bind_ok]
  dsimp only
  rw [Bin.readInt_append hs, res_bind_ok]
  dsimp only
  rw [hm, Bin.resize_length]
  show (if xs.length * M.size < xs.length * L.size then _ else _) = _
  split
  · rfl
  · rw [Bin.readN_append hlen, res_bind_ok]
    rfl

/-- C122. Reading what `serialize` has written, into any array of the same type, gives the same tuples, and what follows in the stream is still to be read. -/
theorem aos_roundtrip {L : Layout τ} (hL : L.Ok) (xs ys : List τ) (rest : List UInt8) (hx : xs.length * L.size < 2 ^ 64) :
    ∃ c, deserialize (image L ys) (serialize (image L xs) ++ rest) = .ok (c, rest) ∧ elements L c = xs := by
  refine ⟨image L xs, ?_, elements_image hL xs⟩
  rw [deserialize_serialize hL xs ys rest hx, if_neg (Nat.lt_irrefl _)]
  have : ((image L ys).resize xs.length).mem.drop (xs.length * L.size) = [] := List.drop_of_length_le (by rw [Bin.resize_length]; exact Nat.le_refl _)
  rw [this, List.append_nil]
  rfl

/-- C122 (disagreement). The type is not checked: reading into an array with smaller tuples writes past its end ... -/
theorem aos_smaller_type {L : Layout τ} {M : Layout σ} (hL : L.Ok) (hlt : M.size < L.size) (xs : List τ) (hne : xs ≠ []) (ys : List σ) (rest : List UInt8) (hx : xs.length * L.size < 2 ^ 64) :
    deserialize (image M ys) (serialize (image L xs) ++ rest) = .error .memoryClobbered := by
  rw [deserialize_serialize hL xs ys rest hx, if_pos]
  exact Nat.mul_lt_mul_of_pos_left hlt (List.length_pos_iff.2 hne)

/-- ... and with larger tuples gives as many tuples, made of other bytes: the file followed by what the array held before, or zeros. -/
theorem aos_larger_type {L : Layout τ} {M : Layout σ} (hL : L.Ok) (hM : M.Ok) (hlt : L.size ≤ M.size) (xs : List τ) (ys : List σ) (rest : List UInt8) (hx : xs.length * L.size < 2 ^ 64) :
    ∃ c, deserialize (image M ys) (serialize (image L xs) ++ rest) = .ok (c, rest) ∧ (elements M c).length = xs.length ∧ xs.flatMap L.enc <+: c.mem := by
  rw [deserialize_serialize hL xs ys rest hx, if_neg (Nat.not_lt.2 (Nat.mul_le_mul_left _ hlt))]
  refine ⟨_, rfl, ?_, List.prefix_append _ _⟩
  unfold elements Bin.Col.size
  have h1 : (xs.flatMap L.enc).length = xs.length * L.size := image_length hL xs
  have h2 := Bin.resize_length (image M ys) xs.length
  have h3 : (image M ys).elSize = M.size := rfl
  have h4 := Nat.mul_le_mul_left xs.length hlt
  rw [List.length_map, List.length_range, List.length_append, List.length_drop, h1, h2, h3]
  show (xs.length * L.size + (xs.length * M.size - xs.length * L.size)) / M.size = _
  rw [Nat.add_sub_cancel' h4, Nat.mul_div_cancel _ hM.pos]

/-- C122. What `==` decides: whether the first array is the beginning of the second; it reads out of bounds exactly if the second is shorter. -/
theorem aos_equal_characterised [DecidableEq τ] (xs ys : List τ) :
    (equal xs ys = .ok true ↔ xs <+: ys) ∧ (equal xs ys = .error .outOfBounds ↔ ys.length < xs.length) := by
  unfold equal
  split
  · rename_i h
    refine ⟨⟨fun h => (by cases h), fun hp => ?_⟩, ⟨fun _ => h, fun _ => rfl⟩⟩
    have := hp.length_le
    omega
  · rename_i h
    refine ⟨?_, ⟨fun h => (by cases h), fun h' => absurd h' h⟩⟩
    rw [List.prefix_iff_eq_take, Except.ok.injEq, decide_eq_true_iff]

/-- C122 (partial: only for arrays of equal length). `==` says whether the arrays are equal. -/
theorem aos_equal_partial [DecidableEq τ] (xs ys : List τ) (hl : xs.length = ys.length) : equal xs ys = .ok (decide (xs = ys)) := by
  unfold equal
  rw [if_neg (by omega), hl, List.take_length]

/-- C122 fails: an array compares equal to a longer one. -/
theorem aos_equal_wrong [DecidableEq τ] (xs : List τ) (x : τ) : equal xs (pushBack xs x) = .ok true ∧ equal (pushBack xs x) xs = .error .outOfBounds ∧ xs ≠ pushBack xs x := by
  refine ⟨(aos_equal_characterised _ _).1.2 (List.prefix_append _ _), (aos_equal_characterised _ _).2.2 (by simp [pushBack]), fun h => ?_⟩
  have := congrArg List.length h
  simp [pushBack] at this

/-- Pairs of a 4-byte and an 8-byte number, with padding between them. -/
def exLayout : Layout (Fin (256 ^ 4) × Fin (256 ^ 8)) :=
  ⟨16, fun p => Bin.le 4 p.1 ++ [0, 0, 0, 0] ++ Bin.le 8 p.2, fun bs => (Fin.ofNat _ (Bin.unLe (bs.take 4)), Fin.ofNat _ (Bin.unLe (bs.drop 8)))⟩

theorem exLayout_ok : exLayout.Ok := by
  refine ⟨by decide, by decide, fun x => by simp [exLayout, Bin.le_length], fun x => ?_⟩
  obtain ⟨a, b⟩ := x
  have e1 : (Bin.le 4 a.1 ++ [0, 0, 0, 0] ++ Bin.le 8 b.1).take 4 = Bin.le 4 a.1 := by
    rw [List.append_assoc, List.take_left' (Bin.le_length 4 _)]
  have e2 : (Bin.le 4 a.1 ++ [0, 0, 0, 0] ++ Bin.le 8 b.1).drop 8 = Bin.le 8 b.1 := by
    rw [List.drop_left' (by simp [Bin.le_length])]
  show (Fin.ofNat _ (Bin.unLe ((Bin.le 4 a.1 ++ [0, 0, 0, 0] ++ Bin.le 8 b.1).take 4)), Fin.ofNat _ (Bin.unLe ((Bin.le 4 a.1 ++ [0, 0, 0, 0] ++ Bin.le 8 b.1).drop 8))) = (a, b)
  rw [e1, e2, Bin.unLe_le 4 a.1 a.2, Bin.unLe_le 8 b.1 b.2]
  have f1 : Fin.ofNat (256 ^ 4) a.1 = a := Fin.ext (Nat.mod_eq_of_lt a.2)
  have f2 : Fin.ofNat (256 ^ 8) b.1 = b := Fin.ext (Nat.mod_eq_of_lt b.2)
  rw [f1, f2]

example : ∃ c, deserialize (image exLayout [(7, 8)]) (serialize (image exLayout [(1, 2), (3, 4)]) ++ [255]) = .ok (c, [255]) ∧ elements exLayout c = [(1, 2), (3, 4)] :=
  aos_roundtrip exLayout_ok _ _ _ (by decide)

/-! ## C123 -/

/-- C123. If all values are below the size of the output, the output counts, for every position, how often it occurs in the input, whatever it held before. -/
theorem histogram_correct (input out : List Nat) (h : ∀ i ∈ input, i < out.length) :
    ∃ o, histogram input out = .ok o ∧ o.length = out.length ∧ ∀ i (hi : i < o.length), o[i] = input.count i := by
  unfold histogram
  suffices ∀ (l : List Nat) (o : List Nat), (∀ i ∈ l, i < o.length) → ∃ o', l.foldlM (fun o i => do
      let c ← vget o i
      vset o i (c + 1)) o = (.ok o' : Res (List Nat)) ∧ o'.length = o.length ∧ ∀ i, o'.getD i 0 = o.getD i 0 + if i < o.length then l.count i else 0 by
    obtain ⟨o, h1, h2, h3⟩ := this input (out.map fun _ => 0) (by simpa using h)
    refine ⟨o, h1, by simpa using h2, fun i hi => ?_⟩
    have h4 : i < out.length := by simpa [h2] using hi
    have := h3 i
    rw [List.getD_eq_getElem?_getD, List.getElem?_eq_getElem hi, List.getD_eq_getElem?_getD, List.getElem?_map, List.getElem?_eq_getElem h4, if_pos (by simpa using h4)] at this
    simpa using this
  intro l
  induction l with
  | nil => intro o _; exact ⟨o, rfl, rfl, fun i => by simp⟩
  | cons a l ih =>
    intro o hl
    have ha := hl a (by simp)
    obtain ⟨o', h1, h2, h3⟩ := ih (o.set a (o[a] + 1)) (by simpa using fun i hi => hl i (by simp [hi]))
    refine ⟨o', ?_, by simpa using h2, fun i => ?_⟩
    · rw [List.foldlM_cons, vget_of_lt ha, res_bind_ok, vset_of_lt ha, res_bind_ok]
      exact h1
    · rw [h3 i, List.length_set, List.count_cons, List.getD_eq_getElem?_getD, List.getElem?_set, List.getD_eq_getElem?_getD]
      by_cases hi : a = i
      · subst hi
        simp [ha]
        omega
      · simp [hi]

/-- C123. A value that is not below the size of the output is an access out of bounds. -/
theorem histogram_out_of_bounds (input out : List Nat) (h : ∃ i ∈ input, out.length ≤ i) : histogram input out = .error .outOfBounds := by
  unfold histogram
  suffices ∀ (l : List Nat) (o : List Nat), (∃ i ∈ l, o.length ≤ i) → l.foldlM (fun o i => do
      let c ← vget o i
      vset o i (c + 1)) o = (.error .outOfBounds : Res (List Nat)) from this input (out.map fun _ => 0) (by simpa using h)
  intro l
  induction l with
  | nil => rintro o ⟨i, hi, -⟩; simp at hi
  | cons a l ih =>
    rintro o ⟨i, hi, hle⟩
    by_cases ha : a < o.length
    · rw [List.foldlM_cons, vget_of_lt ha, res_bind_ok, vset_of_lt ha, res_bind_ok]
      refine ih _ ⟨i, ?_, by simpa using hle⟩
      rcases List.mem_cons.1 hi with rfl | hi
      · omega
      · exact hi
    · rw [List.foldlM_cons]
      have : vget o a = .error .outOfBounds := by
        unfold vget
        rw [List.getElem?_eq_none (by omega)]
      rw [this]
      rfl

example : histogram [2, 0, 2, 1, 2] [7, 7, 7, 7] = .ok [1, 1, 3, 0] ∧ histogram [2, 4] [0, 0, 0, 0] = .error .outOfBounds := by decide

end NW.Aos
