import Verif.Model.TypeCode
import Verif.Spec.TypeCode
import Verif.Props.MmFile

/-!
# C134: type codes and array sizes of mmio_nist.h
-/

namespace NW.TypeCode
open Spec MM

/-! ## Reading the banner -/

theorem scanWords_take {cs : List Char} (n : Nat) {ts : List (List Char)} (h : words cs = ts) (hlen : ∀ t ∈ ts.take n, t.length < 64) : MmFile.scanWords n cs = .ok (ts.take n) := by
  induction n generalizing cs ts with
  | zero => rfl
  | succ n ih =>
    cases ts with
    | nil =>
      have hb := words_eq_nil h
      have hd : cs.dropWhile isSpace = [] := by
        rw [← List.append_nil cs, List.dropWhile_append_of_pos (p := isSpace) (fun c hc => hb c hc)]
        rfl
      rw [MmFile.scanWords, MmFile.scanWord, hd]
      rfl
    | cons t ts =>
      obtain ⟨rest, h1, h2⟩ := MmFile.scanWord_words h
      have ht := hlen t (by simp)
      rw [MmFile.scanWords, h1]
      simp only
      rw [if_neg (by omega), ih h2 fun t' ht' => hlen t' (by simp [ht'])]
      rfl

theorem storage_iff {w : List Char} {c : Char} : storageLetter w = some c ↔ storageWord c = some w := by
  unfold storageLetter storageWord
  constructor
  · intro h
    split at h
    · rename_i hw; cases h; subst hw; rfl
    · split at h
      · rename_i hw; cases h; subst hw; rfl
      · cases h
  · intro h
    split at h
    · rename_i hc; cases h; subst hc; rfl
    · split at h
      · rename_i hc; cases h; subst hc; rfl
      · cases h

theorem element_iff {w : List Char} {c : Char} : elementLetter w = some c ↔ elementWord c = some w := by
  unfold elementLetter elementWord
  constructor
  · intro h
    repeat (split at h; · rename_i hw; cases h; subst hw; rfl)
    cases h
  · intro h
    repeat (split at h; · rename_i hw; cases h; subst hw; rfl)
    cases h

theorem symmetry_iff {w : List Char} {c : Char} : symmetryLetter w = some c ↔ symmetryWord c = some w := by
  unfold symmetryLetter symmetryWord
  constructor
  · intro h
    repeat (split at h; · rename_i hw; cases h; subst hw; rfl)
    cases h
  · intro h
    repeat (split at h; · rename_i hw; cases h; subst hw; rfl)
    cases h

theorem banner_iff (w : List Char) : w.take 14 = sBanner ↔ kwBanner <+: w := by
  have h : sBanner = kwBanner := by decide
  have hl : kwBanner.length = 14 := by decide
  rw [h, List.prefix_iff_eq_take, hl, eq_comm]

/-- **C134.** `mm_read_banner` returns 0 exactly if the first line is a banner, and then the letters are those of its words.  (Lines of at most 1023 characters; words of 64 or more characters: below.) -/
theorem read_banner_iff (line rest : List Char) (hn : '\n' ∉ line) (hlen : line.length ≤ 1023) (hw : ∀ t ∈ (words line).take 5, t.length < 64) (c : Code) :
    readBanner (line ++ '\n' :: rest) = .ok (0, c, rest) ↔ BannerSays line c := by
  have hsc : MmFile.scanWords 5 (line ++ ['\n']) = .ok ((words line).take 5) := scanWords_take 5 (words_snoc_blank _ (by decide)) hw
  have hf := MmFile.fgets_line (cs := rest) hn hlen
  have hr : readBanner (line ++ '\n' :: rest) = (match (words line).take 5 with
    | [banner, mtx, crd, dt, st] =>
      if banner.take 14 ≠ sBanner then .ok (14, cleared, rest)
      else if MmFile.lower mtx ≠ "matrix".toList then .ok (15, cleared, rest)
      else match storageLetter (MmFile.lower crd) with
        | none => .ok (15, ('M', ' ', ' ', 'G'), rest)
        | some a => match elementLetter (MmFile.lower dt) with
          | none => .ok (15, ('M', a, ' ', 'G'), rest)
          | some b => match symmetryLetter (MmFile.lower st) with
            | none => .ok (15, ('M', a, b, 'G'), rest)
            | some d => .ok (0, ('M', a, b, d), rest)
    | _ => .ok (12, cleared, rest)) := by
    unfold readBanner
    rw [hf]
    simp only [hsc, res_bind_ok]
    rfl
  rw [hr]
  constructor
  · intro h
    split at h
    · rename_i banner mtx crd dt st hws
      by_cases h1 : banner.take 14 = sBanner
      swap
      · rw [if_pos h1] at h; cases h
      rw [if_neg (by simpa using h1)] at h
      by_cases h2 : MmFile.lower mtx = "matrix".toList
      swap
      · rw [if_pos h2] at h; cases h
      rw [if_neg (by simpa using h2)] at h
      cases ha : storageLetter (MmFile.lower crd) with
      | none => rw [ha] at h; cases h
      | some a =>
      cases hb : elementLetter (MmFile.lower dt) with
      | none => rw [ha, hb] at h; cases h
      | some b =>
      cases hd : symmetryLetter (MmFile.lower st) with
      | none => rw [ha, hb, hd] at h; cases h
      | some d =>
      rw [ha, hb, hd] at h
      cases h
      refine ⟨banner, [mtx, crd, dt, st], (words line).drop 5, ?_, (banner_iff _).1 h1, rfl, _, _, _, rfl, storage_iff.1 ha, element_iff.1 hb, symmetry_iff.1 hd, ?_⟩
      · conv => lhs; rw [← List.take_append_drop 5 (words line), hws]
        rfl
      · simp only [List.map_cons, List.map_nil]
        unfold MmFile.lower at h2
        rw [h2]; rfl
    · cases h
  · rintro ⟨w, t, more, hwords, hb, ht, a, b, d, h0, h1, h2, h3, hm⟩
    match t, ht with
    | [mtx, crd, dt, st], _ =>
      simp only [List.map_cons, List.map_nil, List.cons.injEq, and_true] at hm
      obtain ⟨e0, e1, e2, e3⟩ := hm
      have : (words line).take 5 = [w, mtx, crd, dt, st] := by rw [hwords]; rfl
      rw [this]
      simp only
      have f1 : storageLetter (MmFile.lower crd) = some c.2.1 := by unfold MmFile.lower; rw [e1]; exact storage_iff.2 h1
      have f2 : elementLetter (MmFile.lower dt) = some c.2.2.1 := by unfold MmFile.lower; rw [e2]; exact element_iff.2 h2
      have f3 : symmetryLetter (MmFile.lower st) = some c.2.2.2 := by unfold MmFile.lower; rw [e3]; exact symmetry_iff.2 h3
      rw [if_neg (by simpa using (banner_iff w).2 hb), if_neg (by simp [MmFile.lower, e0]), f1, f2, f3]
      simp only
      rw [← h0]

theorem scanWords_long {cs : List Char} (n : Nat) {ts : List (List Char)} (h : words cs = ts) (hlen : ∃ t ∈ ts.take n, 64 ≤ t.length) : MmFile.scanWords n cs = .error .memoryClobbered := by
  induction n generalizing cs ts with
  | zero => obtain ⟨t, ht, _⟩ := hlen; simp at ht
  | succ n ih =>
    cases ts with
    | nil => obtain ⟨t, ht, _⟩ := hlen; simp at ht
    | cons t ts =>
      obtain ⟨rest, h1, h2⟩ := MmFile.scanWord_words h
      rw [MmFile.scanWords, h1]
      simp only
      by_cases ht : 64 ≤ t.length
      · rw [if_pos ht]
      · rw [if_neg ht, ih h2 ?_]
        · rfl
        · obtain ⟨u, hu, hl⟩ := hlen
          rw [List.take_succ_cons] at hu
          rcases List.mem_cons.1 hu with rfl | hu
          · exact absurd hl ht
          · exact ⟨u, hu, hl⟩

/-- **C134, false of the code:** a word of 64 characters or more among the first five is written past the end of its buffer. -/
theorem read_banner_long_wrong (line rest : List Char) (hn : '\n' ∉ line) (hlen : line.length ≤ 1023) (hw : ∃ t ∈ (words line).take 5, 64 ≤ t.length) :
    readBanner (line ++ '\n' :: rest) = .error .memoryClobbered := by
  unfold readBanner
  rw [MmFile.fgets_line hn hlen]
  simp only [scanWords_long 5 (words_snoc_blank line (c := '\n') (by decide)) hw, res_bind_error]

/-- The two models of `mm_read_banner` agree. -/
theorem read_banner_refines (cs : List Char) (t : MmFile.TypeCode) (rest : List Char) :
    MmFile.readBanner cs = .ok (some (t, rest)) → ∃ c, readBanner cs = .ok (0, c, rest) ∧ (c.2.1 = 'C' ↔ t.coordinate = true) ∧
      (c.2.2.1 = match t.field with | .real => 'R' | .complex => 'C' | .pattern => 'P' | .integer => 'I') ∧
      (c.2.2.2 = match t.scheme with | .general => 'G' | .symmetric => 'S' | .hermitian => 'H' | .skew => 'K') := by
  unfold MmFile.readBanner readBanner
  cases hf : MmFile.fgets cs with
  | none => intro h; cases h
  | some lr =>
    obtain ⟨line, rest'⟩ := lr
    simp only
    cases hs : MmFile.scanWords 5 line with
    | error f => intro h; cases h
    | ok ws =>
      rw [res_bind_ok, res_bind_ok]
      match ws with
      | [] | [_] | [_, _] | [_, _, _] | [_, _, _, _] | _ :: _ :: _ :: _ :: _ :: _ :: _ => intro h; cases h
      | [banner, mtx, crd, dt, st] =>
        simp only
        intro h
        by_cases h1 : banner.take 14 = sBanner
        swap
        · rw [if_pos h1] at h; cases h
        rw [if_neg (by simpa using h1)] at h ⊢
        by_cases h2 : MmFile.lower mtx = "matrix".toList
        swap
        · rw [if_pos h2] at h; cases h
        rw [if_neg (by simpa using h2)] at h ⊢
        have hE : elementLetter (MmFile.lower dt) = (MmFile.parseField (MmFile.lower dt)).map fun f => match f with | .real => 'R' | .complex => 'C' | .pattern => 'P' | .integer => 'I' := by
          unfold elementLetter MmFile.parseField
          split
          · rfl
          split
          · rfl
          split
          · rfl
          split <;> rfl
        have hS : symmetryLetter (MmFile.lower st) = (MmFile.parseScheme (MmFile.lower st)).map fun f => match f with | .general => 'G' | .symmetric => 'S' | .hermitian => 'H' | .skew => 'K' := by
          unfold symmetryLetter MmFile.parseScheme
          split
          · rfl
          split
          · rfl
          split
          · rfl
          split <;> rfl
        by_cases h3 : MmFile.lower crd ≠ "coordinate".toList ∧ MmFile.lower crd ≠ "array".toList
        · rw [if_pos h3] at h; cases h
        rw [if_neg h3] at h
        cases hp : MmFile.parseField (MmFile.lower dt) with
        | none => rw [hp] at h; cases h
        | some f =>
        cases hq : MmFile.parseScheme (MmFile.lower st) with
        | none => rw [hp, hq] at h; cases h
        | some s =>
        rw [hp, hq] at h
        cases h
        rw [hE, hS, hp, hq]
        by_cases hc : MmFile.lower crd = "coordinate".toList
        · refine ⟨_, by rw [hc]; rfl, by simp [hc], rfl, rfl⟩
        · have ha : MmFile.lower crd = "array".toList := by
            by_contra hx; exact h3 ⟨hc, hx⟩
          refine ⟨_, by rw [ha]; rfl, ⟨fun h => absurd h (by show ('A' : Char) ≠ 'C'; decide), fun h => absurd (of_decide_eq_true h) hc⟩, rfl, rfl⟩

/-! ## Writing the type -/

/-- **C134.** `mm_typecode_to_str` writes the words of the letters, and returns NULL if a letter behind the first stands for nothing. -/
theorem to_str_iff (c : Code) (hM : c.1 = 'M') (t : List Char) : toStr c = .ok (some t) ↔ ∃ a b d, CodeWords c ["matrix".toList, a, b, d] ∧ t = "matrix".toList ++ ' ' :: a ++ ' ' :: b ++ ' ' :: d := by
  have hx : toStr c = match storageWord c.2.1, elementWord c.2.2.1, symmetryWord c.2.2.2 with
    | some a, some b, some d => .ok (some ("matrix".toList ++ ' ' :: a ++ ' ' :: b ++ ' ' :: d))
    | _, _, _ => .ok none := by
    unfold toStr storageWord elementWord symmetryWord
    rw [if_pos hM]
    rfl
  rw [hx]
  constructor
  · intro h
    cases h1 : storageWord c.2.1 with
    | none => rw [h1] at h; cases h
    | some a =>
    cases h2 : elementWord c.2.2.1 with
    | none => rw [h1, h2] at h; cases h
    | some b =>
    cases h3 : symmetryWord c.2.2.2 with
    | none => rw [h1, h2, h3] at h; cases h
    | some d =>
    rw [h1, h2, h3] at h
    cases h
    exact ⟨a, b, d, ⟨a, b, d, hM, h1, h2, h3, rfl⟩, rfl⟩
  · rintro ⟨a, b, d, ⟨a', b', d', _, h1, h2, h3, he⟩, rfl⟩
    cases he
    rw [h1, h2, h3]

/-- **C134, false of the code:** if the first letter is not `M` and the others are fine, a pointer that was never set is printed. -/
theorem to_str_wrong (c : Code) (hM : c.1 ≠ 'M') (a b d : List Char) (h1 : storageWord c.2.1 = some a) (h2 : elementWord c.2.2.1 = some b) (h3 : symmetryWord c.2.2.2 = some d) :
    toStr c = .error .uninitialised := by
  have hx : toStr c = match storageWord c.2.1, elementWord c.2.2.1, symmetryWord c.2.2.2 with
    | some _, some _, some _ => .error .uninitialised
    | _, _, _ => .ok none := by
    unfold toStr storageWord elementWord symmetryWord
    rw [if_neg hM]
    rfl
  rw [hx, h1, h2, h3]

theorem storage_cases {c : Char} {a : List Char} (h : storageWord c = some a) : (c = 'C' ∧ a = "coordinate".toList) ∨ (c = 'A' ∧ a = "array".toList) := by
  unfold storageWord at h
  split at h
  · rename_i hc; cases h; exact .inl ⟨hc, rfl⟩
  split at h
  · rename_i hc; cases h; exact .inr ⟨hc, rfl⟩
  cases h

theorem element_cases {c : Char} {a : List Char} (h : elementWord c = some a) :
    (c = 'R' ∧ a = "real".toList) ∨ (c = 'C' ∧ a = "complex".toList) ∨ (c = 'P' ∧ a = "pattern".toList) ∨ (c = 'I' ∧ a = "integer".toList) := by
  unfold elementWord at h
  split at h
  · rename_i hc; cases h; exact .inl ⟨hc, rfl⟩
  split at h
  · rename_i hc; cases h; exact .inr (.inl ⟨hc, rfl⟩)
  split at h
  · rename_i hc; cases h; exact .inr (.inr (.inl ⟨hc, rfl⟩))
  split at h
  · rename_i hc; cases h; exact .inr (.inr (.inr ⟨hc, rfl⟩))
  cases h

theorem symmetry_cases {c : Char} {a : List Char} (h : symmetryWord c = some a) :
    (c = 'G' ∧ a = "general".toList) ∨ (c = 'S' ∧ a = "symmetric".toList) ∨ (c = 'H' ∧ a = "hermitian".toList) ∨ (c = 'K' ∧ a = "skew-symmetric".toList) := by
  unfold symmetryWord at h
  split at h
  · rename_i hc; cases h; exact .inl ⟨hc, rfl⟩
  split at h
  · rename_i hc; cases h; exact .inr (.inl ⟨hc, rfl⟩)
  split at h
  · rename_i hc; cases h; exact .inr (.inr (.inl ⟨hc, rfl⟩))
  split at h
  · rename_i hc; cases h; exact .inr (.inr (.inr ⟨hc, rfl⟩))
  cases h

/-- **C134.** A type that is written after `%%MatrixMarket` on a line is read again. -/
theorem to_str_read_banner (c : Code) (t rest : List Char) (hM : c.1 = 'M') (h : toStr c = .ok (some t)) : readBanner (kwBanner ++ ' ' :: t ++ '\n' :: rest) = .ok (0, c, rest) := by
  obtain ⟨a, b, d, ⟨a', b', d', _, h1, h2, h3, he⟩, rfl⟩ := (to_str_iff c hM t).1 h
  cases he
  have hw : words (kwBanner ++ ' ' :: ("matrix".toList ++ ' ' :: a ++ ' ' :: b ++ ' ' :: d)) = [kwBanner, "matrix".toList, a, b, d] := by
    rcases storage_cases h1 with ⟨_, rfl⟩ | ⟨_, rfl⟩ <;> rcases element_cases h2 with ⟨_, rfl⟩ | ⟨_, rfl⟩ | ⟨_, rfl⟩ | ⟨_, rfl⟩ <;>
      rcases symmetry_cases h3 with ⟨_, rfl⟩ | ⟨_, rfl⟩ | ⟨_, rfl⟩ | ⟨_, rfl⟩ <;> decide +kernel
  have hall : '\n' ∉ (kwBanner ++ ' ' :: ("matrix".toList ++ ' ' :: a ++ ' ' :: b ++ ' ' :: d)) ∧ (kwBanner ++ ' ' :: ("matrix".toList ++ ' ' :: a ++ ' ' :: b ++ ' ' :: d)).length ≤ 1023 ∧
      (∀ u ∈ [kwBanner, "matrix".toList, a, b, d], u.length < 64) ∧ [a, b, d].map (fun u => u.map Char.toLower) = [a, b, d] := by
    rcases storage_cases h1 with ⟨_, rfl⟩ | ⟨_, rfl⟩ <;> rcases element_cases h2 with ⟨_, rfl⟩ | ⟨_, rfl⟩ | ⟨_, rfl⟩ | ⟨_, rfl⟩ <;>
      rcases symmetry_cases h3 with ⟨_, rfl⟩ | ⟨_, rfl⟩ | ⟨_, rfl⟩ | ⟨_, rfl⟩ <;> decide +kernel
  obtain ⟨hn, hl, h64, hlow⟩ := hall
  refine (read_banner_iff _ rest hn hl (by rw [hw]; exact h64) c).2 ?_
  refine ⟨kwBanner, ["matrix".toList, a, b, d], [], by rw [hw]; rfl, List.prefix_rfl, rfl, a, b, d, hM, h1, h2, h3, ?_⟩
  rw [List.map_cons, hlow]
  rfl

/-! ## Validity -/

/-- **C134.** `mm_is_valid` accepts exactly the types that the format has, among the codes whose last three letters all stand for something.  Missing: Hermitian matrices of integers and
letters that stand for nothing (below). -/
theorem is_valid_partial (c : Code) (t : List (List Char)) (hc : CodeWords ('M', c.2) t) (hI : ¬ (c.2.2.1 = 'I' ∧ c.2.2.2 = 'H')) : isValid c = true ↔ Meaningful c := by
  by_cases hM : c.1 = 'M'
  · obtain ⟨c0, c1, c2, c3⟩ := c
    simp only at hM
    subst hM
    obtain ⟨a, b, d, h0, h1, h2, h3, rfl⟩ := id hc
    unfold Meaningful
    rw [and_iff_right ⟨_, hc⟩]
    clear hc
    simp only at *
    rcases storage_cases h1 with ⟨rfl, _⟩ | ⟨rfl, _⟩ <;> rcases element_cases h2 with ⟨rfl, _⟩ | ⟨rfl, _⟩ | ⟨rfl, _⟩ | ⟨rfl, _⟩ <;>
      rcases symmetry_cases h3 with ⟨rfl, _⟩ | ⟨rfl, _⟩ | ⟨rfl, _⟩ | ⟨rfl, _⟩ <;> first | (exfalso; exact hI ⟨rfl, rfl⟩) | decide
  · refine iff_of_false (by simp [isValid, hM]) ?_
    rintro ⟨⟨t, a, b, d, h0, -⟩, -⟩
    exact hM h0

/-- Cases of `is_valid_partial`: a type that the format has, and the same letters behind one that does not stand for a matrix. -/
example : Meaningful ('M', 'C', 'R', 'G') ∧ ¬ Meaningful ('V', 'C', 'R', 'G') := by
  have h : CodeWords ('M', 'C', 'R', 'G') _ := ⟨_, _, _, rfl, rfl, rfl, rfl, rfl⟩
  exact ⟨(is_valid_partial ('M', 'C', 'R', 'G') _ h (by decide)).1 (by decide), fun hm => absurd ((is_valid_partial ('V', 'C', 'R', 'G') _ h (by decide)).2 hm) (by decide)⟩

/-- **C134, false of the code:** Hermitian matrices of integers are accepted. -/
theorem is_valid_hermitian_wrong : isValid ('M', 'C', 'I', 'H') = true ∧ ¬ Meaningful ('M', 'C', 'I', 'H') := by
  refine ⟨by decide, ?_⟩
  rintro ⟨_, _, h⟩
  exact absurd (h rfl) (by decide)

/-- **C134, false of the code:** so is every code with letters that stand for nothing, for example the one that `mm_read_banner` leaves when it returns an error. -/
theorem is_valid_unknown_wrong (x y z : Char) (hx : x ≠ 'A' ∧ x ≠ 'C') (hy : y ≠ 'P' ∧ y ≠ 'R') : isValid ('M', x, y, z) = true ∧ ¬ Meaningful ('M', x, y, z) := by
  refine ⟨by simp [isValid, hx.1, hy.1, hy.2], ?_⟩
  rintro ⟨⟨t, a, b, d, _, h, _⟩, _⟩
  rcases storage_cases h with ⟨h, _⟩ | ⟨h, _⟩
  · exact hx.2 h
  · exact hx.1 h

/-! ## The sizes of an array -/

theorem scan2_line {l more : List Char} {a b : List Char} {na nb : Nat} (hl : words l = [a, b]) (ha : Numeral a na) (hb : Numeral b nb) (ha' : na < 2 ^ 31) (hb' : nb < 2 ^ 31) :
    ∃ tail, scan2 (l ++ '\n' :: more) = .all na nb (tail ++ '\n' :: more) := by
  obtain ⟨p1, r1, e1, hp1, -, -, hr1, w1⟩ := words_cons hl
  obtain ⟨p2, r2, e2, hp2, -, -, hr2, w2⟩ := words_cons w1
  refine ⟨r2, ?_⟩
  have s1 : MmFile.scanInt (l ++ '\n' :: more) = .value na (r1 ++ '\n' :: more) := by
    rw [e1, List.append_assoc, List.append_assoc]
    exact MmFile.scanInt_num hp1 ha ha' (.inr (MmFile.follow hr1))
  have s2 : MmFile.scanInt (r1 ++ '\n' :: more) = .value nb (r2 ++ '\n' :: more) := by
    rw [e2, List.append_assoc, List.append_assoc]
    exact MmFile.scanInt_num hp2 hb hb' (.inr (MmFile.follow hr2))
  unfold scan2
  simp only [s1, s2]

/-- **C134.** `mm_read_mtx_array_size` skips the comments and returns the two sizes; what is read next is behind their line. -/
theorem array_size_partial (comments : List (List Char)) (size n m rest : List Char) (rows cols : Nat) (hn : ∀ l ∈ comments ++ [size], '\n' ∉ l) (hlen : ∀ l ∈ comments ++ [size], l.length ≤ 1023)
    (hc : ∀ l ∈ comments, l.head? = some '%') (hs : words size = [n, m]) (h1 : Numeral n rows) (h2 : Numeral m cols) (hr : rows < 2 ^ 31) (hcl : cols < 2 ^ 31) :
    Run.Gives (arraySize (MmFile.textOf comments ++ (size ++ '\n' :: rest))) (· = some ((rows : Int), (cols : Int), rest)) := by
  have hl := MmFile.comments_loop (rest := rest) hn hlen hc (MmFile.head_of_number hs h1)
  unfold arraySize
  refine Run.Gives.bind (MmFile.gives_ok hl) ?_
  rintro _ rfl
  obtain ⟨tail, ht⟩ := scan2_line (more := []) hs h1 h2 hr hcl
  simp only [ht]
  exact Run.gives_pure rfl

/-- **C134, false of the code:** a comment behind a blank line is read again and again, forever. -/
theorem array_size_never_ends (comments : List (List Char)) (hn : ∀ l ∈ comments, '\n' ∉ l) (hlen : ∀ l ∈ comments, l.length ≤ 1023) (hc : ∀ l ∈ comments, l.head? = some '%') (rest : List Char) (o) :
    ¬ arraySize (MmFile.textOf comments ++ ([] ++ '\n' :: '%' :: rest)) o := by
  have hb : arrayBody ('%' :: rest) = .ok (.inl ('%' :: rest)) := by
    unfold arrayBody scan2 MmFile.scanInt
    rw [List.dropWhile_cons_of_neg (by decide)]
    have h1 : takeSign ('%' :: rest) = (false, '%' :: rest) := rfl
    have h2 : ('%' :: rest).takeWhile isDigit = [] := List.takeWhile_cons_of_neg (by decide)
    simp only [h1, h2]
    rfl
  have hnever : ∀ o, ¬ Loop arrayBody ('%' :: rest) o := by
    intro o h
    generalize hs : '%' :: rest = s at h
    induction h with
    | done h => subst hs; rw [hb] at h; cases h
    | fault h => subst hs; rw [hb] at h; cases h
    | step h _ ih => subst hs; rw [hb] at h; cases h; exact ih rfl
  have hl := MmFile.comments_loop (size := []) (rest := '%' :: rest) (comments := comments)
    (by intro l h; rcases List.mem_append.1 h with h | h; exact hn l h; rw [List.mem_singleton.1 h]; simp)
    (by intro l h; rcases List.mem_append.1 h with h | h; exact hlen l h; rw [List.mem_singleton.1 h]; simp) hc (by simp)
  unfold arraySize
  refine MmFile.never_bind (MmFile.gives_ok hl) ?_ o
  intro o
  have : scan2 ([] ++ ['\n']) = .eof := rfl
  simp only [this]
  exact hnever o

/-! ## Concrete cases -/

example : readBanner "%%MatrixMarket MATRIX array Real skew-symmetric\n3 3".toList = .ok (0, ('M', 'A', 'R', 'K'), "3 3".toList) := by decide +kernel
example : readBanner "%%MatrixMarket matrix list real general\n".toList = .ok (15, ('M', ' ', ' ', 'G'), []) := by decide +kernel
example : toStr ('M', 'A', 'R', 'K') = .ok (some "matrix array real skew-symmetric".toList) := by decide +kernel

end NW.TypeCode
