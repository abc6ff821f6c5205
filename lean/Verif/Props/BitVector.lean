import Verif.Model.BitVector

/-! # C47: the atomic bit vector is a set of indices -/

namespace NW.BitVec'

/-- Whether bit `i` is set. -/
def bitAt (B : Nat) (v : List Nat) (i : Nat) : Bool := (v.getD (i / B) 0).testBit (i % B)

/-- Every word fits in `B` bits. -/
def Fits (B : Nat) (v : List Nat) : Prop := ∀ w ∈ v, w < 2 ^ B

theorem mask_eq {B i : Nat} (hB : 0 < B) : (split B i).2 = 2 ^ (i % B) := by
  have : i % B < B := Nat.mod_lt _ hB
  unfold split
  rw [Nat.one_shiftLeft]
  exact Nat.mod_eq_of_lt (Nat.pow_lt_pow_right (by omega) this)

theorem and_mask {w k : Nat} : (w &&& 2 ^ k ≠ 0) ↔ w.testBit k = true := by
  constructor
  · intro h
    cases hb : w.testBit k with
    | true => rfl
    | false =>
      exfalso; apply h
      apply Nat.eq_of_testBit_eq
      intro i
      rw [Nat.testBit_and, Nat.testBit_two_pow, Nat.zero_testBit]
      by_cases c : k = i
      · subst c; simp [hb]
      · simp [c]
  · intro h h0
    have : (w &&& 2 ^ k).testBit k = true := by simp [Nat.testBit_and, h]
    rw [h0] at this; simp at this

theorem get_ok {B : Nat} (hB : 0 < B) {v : List Nat} {i : Nat} (hi : i / B < v.length) :
    ∃ r, get B v i = .ok r ∧ (r ≠ 0 ↔ bitAt B v i = true) := by
  refine ⟨v[i / B] &&& 2 ^ (i % B), ?_, ?_⟩
  · unfold get
    rw [mask_eq hB]
    show (do let w ← vget v (i / B); _ : Res Nat) = _
    rw [vget_of_lt hi]; rfl
  · rw [and_mask, bitAt, List.getD_eq_getElem?_getD, List.getElem?_eq_getElem hi]; rfl

theorem set_ok {B : Nat} (hB : 0 < B) {v : List Nat} (hv : Fits B v) {i : Nat} (hi : i / B < v.length) :
    ∃ r v', set B v i = .ok (r, v') ∧ (r ≠ 0 ↔ bitAt B v i = true) ∧ v'.length = v.length ∧ Fits B v' ∧
      ∀ j, bitAt B v' j = (decide (j = i) || bitAt B v j) := by
  refine ⟨v[i / B] &&& 2 ^ (i % B), v.set (i / B) (v[i / B] ||| 2 ^ (i % B)), ?_, ?_, by simp, ?_, ?_⟩
  · unfold set
    rw [mask_eq hB]
    have h1 : (split B i).1 = i / B := rfl
    rw [h1, vget_of_lt hi, res_bind_ok, vset_of_lt hi]; rfl
  · rw [and_mask, bitAt, List.getD_eq_getElem?_getD, List.getElem?_eq_getElem hi]; rfl
  · intro w hw
    rcases List.mem_or_eq_of_mem_set hw with h | h
    · exact hv w h
    · subst h
      exact Nat.or_lt_two_pow (hv _ (List.getElem_mem hi))
        (Nat.pow_lt_pow_right (by omega) (Nat.mod_lt _ hB))
  · intro j
    unfold bitAt
    rw [List.getD_eq_getElem?_getD, List.getElem?_set]
    by_cases c : i / B = j / B
    · rw [if_pos c, if_pos hi]
      simp only [Option.getD_some, Nat.testBit_or, Nat.testBit_two_pow, List.getD_eq_getElem?_getD]
      rw [← c, List.getElem?_eq_getElem hi, Option.getD_some]
      have : (i % B = j % B) ↔ j = i := by
        constructor
        · intro h
          rw [← Nat.div_add_mod i B, ← Nat.div_add_mod j B, c, h]
        · rintro rfl; rfl
      simp only [this, Bool.or_comm]
    · rw [if_neg c]
      have : j ≠ i := by rintro rfl; exact c rfl
      simp [this]

/-- Specification: the set after operations, and what each operation reports. -/
def report : (Nat → Bool) → List Op → List Bool
  | _, [] => []
  | m, .get i :: ops => m i :: report m ops
  | m, .set i :: ops => m i :: report (fun j => decide (j = i) || m j) ops

def after : (Nat → Bool) → List Op → Nat → Bool
  | m, [] => m
  | m, .get _ :: ops => after m ops
  | m, .set i :: ops => after (fun j => decide (j = i) || m j) ops

theorem run_ok {B : Nat} (hB : 0 < B) (ops : List Op) (v : List Nat) (hv : Fits B v)
    (hin : ∀ i, Op.get i ∈ ops ∨ Op.set i ∈ ops → i / B < v.length) :
    ∃ rs v', run B v ops = .ok (rs, v') ∧ v'.length = v.length ∧ Fits B v' ∧
      rs.map (fun r => decide (r ≠ 0)) = report (bitAt B v) ops ∧ (∀ j, bitAt B v' j = after (bitAt B v) ops j) := by
  induction ops generalizing v with
  | nil => exact ⟨[], v, rfl, rfl, hv, rfl, fun _ => rfl⟩
  | cons op ops ih =>
    cases op with
    | get i =>
      obtain ⟨r, h1, h2⟩ := get_ok hB (v := v) (i := i) (hin i (by simp))
      obtain ⟨rs, v', k1, k2, k3, k4, k5⟩ := ih v hv (fun j hj => hin j (by rcases hj with h | h <;> simp [h]))
      refine ⟨r :: rs, v', ?_, k2, k3, ?_, k5⟩
      · simp [run, h1, k1]
      · simp only [List.map_cons, report, k4]
        congr 1
        cases hb : bitAt B v i <;> simp_all
    | set i =>
      obtain ⟨r, v1, h1, h2, h3, h4, h5⟩ := set_ok hB hv (i := i) (hin i (by simp))
      obtain ⟨rs, v', k1, k2, k3, k4, k5⟩ := ih v1 h4
        (fun j hj => by rw [h3]; exact hin j (by rcases hj with h | h <;> simp [h]))
      have hb1 : bitAt B v1 = fun j => decide (j = i) || bitAt B v j := funext h5
      refine ⟨r :: rs, v', ?_, by omega, k3, ?_, ?_⟩
      · simp [run, h1, k1]
      · simp only [List.map_cons, report, k4, hb1]
        congr 1
        cases hb : bitAt B v i <;> simp_all
      · intro j; rw [k5, hb1]; rfl

theorem after_eq (m : Nat → Bool) (ops : List Op) (j : Nat) : after m ops j = (m j || decide (Op.set j ∈ ops)) := by
  induction ops generalizing m with
  | nil => simp [after]
  | cons op ops ih =>
    cases op with
    | get i => simp [after, ih]
    | set i =>
      simp only [after, ih, List.mem_cons, Op.set.injEq]
      by_cases c : j = i <;> cases m j <;> simp [c]

/-- How many of the `set i` operations report "previously unset". -/
def wins (i : Nat) (ops : List Op) (rs : List Nat) : Nat :=
  (ops.zip rs).countP fun p => decide (p.1 = Op.set i ∧ p.2 = 0)

theorem index_in_words {B bits i : Nat} (hB : 0 < B) (h : i < bits) : i / B < words B bits := by
  unfold words
  have h1 := Nat.div_add_mod bits B
  have h2 := Nat.mod_lt bits hB
  rw [Nat.div_lt_iff_lt_mul hB]
  split
  · rw [Nat.add_mul, Nat.one_mul, Nat.mul_comm]; omega
  · rename_i c; simp at c; rw [Nat.add_zero, Nat.mul_comm]; omega

theorem bitAt_new (B bits j : Nat) : bitAt B (new B bits) j = false := by
  unfold bitAt new
  rw [List.getD_eq_getElem?_getD, List.getElem?_replicate]
  split <;> simp

theorem wins_eq (ops : List Op) : ∀ (m : Nat → Bool) (rs : List Nat) (i : Nat),
    rs.map (fun r => decide (r ≠ 0)) = report m ops →
    wins i ops rs = if m i = false ∧ Op.set i ∈ ops then 1 else 0 := by
  induction ops with
  | nil => intro m rs i _; simp [wins]
  | cons op ops ih =>
    intro m rs i h
    cases rs with
    | nil => cases op <;> simp [report] at h
    | cons r rs =>
      cases op with
      | get k =>
        simp only [List.map_cons, report, List.cons.injEq] at h
        have := ih m rs i h.2
        unfold wins at this ⊢
        simp only [List.zip_cons_cons, List.countP_cons, this]
        simp
      | set k =>
        simp only [List.map_cons, report, List.cons.injEq] at h
        have := ih _ rs i h.2
        unfold wins at this ⊢
        simp only [List.zip_cons_cons, List.countP_cons, this]
        by_cases c : k = i
        · subst c
          have h1 := h.1
          cases hm : m k <;> rw [hm] at h1 <;> simp_all
        · have : i ≠ k := Ne.symm c
          simp [c, this]

/-- C47. For every size and every interleaving of `get`s and `set`s on a cleared bit vector, with indices below the size: nothing is accessed out of
bounds; afterwards exactly the indices that were set are members; each operation reports whether the index was set
before it; and of all the `set` operations on one index exactly one sees it unset. -/
theorem bit_vector_is_a_set (B bits : Nat) (hB : 0 < B) (ops : List Op)
    (hin : ∀ i, Op.get i ∈ ops ∨ Op.set i ∈ ops → i < bits) :
    ∃ rs v, run B (new B bits) ops = .ok (rs, v) ∧
      (∀ j, bitAt B v j = decide (Op.set j ∈ ops)) ∧
      (∀ k i, ops[k]? = some (.get i) ∨ ops[k]? = some (.set i) →
        ∃ r, rs[k]? = some r ∧ (r ≠ 0 ↔ Op.set i ∈ ops.take k)) ∧
      (∀ i, Op.set i ∈ ops → wins i ops rs = 1) := by
  have hv : Fits B (new B bits) := by
    intro w hw
    rw [List.eq_of_mem_replicate hw]; exact Nat.two_pow_pos _
  obtain ⟨rs, v, h1, h2, h3, h4, h5⟩ := run_ok hB ops (new B bits) hv (fun i hi => by
    have := index_in_words hB (hin i hi)
    simpa [new] using this)
  have hm0 : ∀ j, bitAt B (new B bits) j = false := bitAt_new B bits
  refine ⟨rs, v, h1, ?_, ?_, ?_⟩
  · intro j
    rw [h5, after_eq, hm0]; simp
  · have key : ∀ (ops : List Op) (m : Nat → Bool) (k i : Nat), ops[k]? = some (.get i) ∨ ops[k]? = some (.set i) →
        (report m ops)[k]? = some (m i || decide (Op.set i ∈ ops.take k)) := by
      intro ops
      induction ops with
      | nil => intro m k i h; simp at h
      | cons op ops ih =>
        intro m k i h
        cases k with
        | zero =>
          simp at h
          rcases h with rfl | rfl <;> simp [report]
        | succ k =>
          have h' : ops[k]? = some (.get i) ∨ ops[k]? = some (.set i) := by simpa using h
          cases op with
          | get j => simp [report, ih m k i h']
          | set j =>
            simp only [report, List.getElem?_cons_succ, ih _ k i h', List.take_succ_cons, List.mem_cons, Op.set.injEq]
            by_cases c : i = j <;> cases m i <;> simp [c]
    intro k i hk
    have hr := key ops (bitAt B (new B bits)) k i hk
    rw [← h4, hm0, List.getElem?_map] at hr
    cases hrk : rs[k]? with
    | none => rw [hrk] at hr; simp at hr
    | some r =>
      rw [hrk] at hr
      simp at hr
      refine ⟨r, rfl, ?_⟩
      by_cases c : Op.set i ∈ ops.take k
      · simp [c] at hr ⊢; exact hr
      · simp [c] at hr ⊢; exact hr
  · intro i hi
    rw [wins_eq ops _ rs i h4, if_pos ⟨hm0 i, hi⟩]

example : run 8 (new 8 20) [.set 9, .get 9, .get 8, .set 9, .set 19] = .ok ([0, 2, 0, 2, 0], [0, 2, 8]) := by decide

/-! ## Iteration -/

theorem ctz_spec (w : Nat) (h : w ≠ 0) : w.testBit (ctz w) = true ∧ ∀ j, j < ctz w → w.testBit j = false := by
  induction w using Nat.strongRecOn with
  | ind w ih =>
    unfold ctz
    rw [dif_neg h]
    by_cases c : w % 2 = 1
    · rw [if_pos c]
      exact ⟨by simp [c], fun j hj => by omega⟩
    · rw [if_neg c]
      obtain ⟨h1, h2⟩ := ih (w / 2) (by omega) (by omega)
      refine ⟨by rw [Nat.testBit_succ]; exact h1, ?_⟩
      intro j hj
      cases j with
      | zero => simp; omega
      | succ j => rw [Nat.testBit_succ]; exact h2 j (by omega)

theorem ctz_lt {w B : Nat} (h : w ≠ 0) (hw : w < 2 ^ B) : ctz w < B := by
  have := (ctz_spec w h).1
  rcases Nat.lt_or_ge (ctz w) B with c | c
  · exact c
  · rw [Nat.testBit_lt_two_pow (Nat.lt_of_lt_of_le hw (Nat.pow_le_pow_right (by omega) c))] at this
    cases this

/-- Position `p` is the first member at or after index `a`, or the end. -/
structure FirstFrom (B : Nat) (v : List Nat) (a : Nat) (p : Pos) : Prop where
  bit : p.bit < B
  ge : a ≤ p.word * B + p.bit
  none_before : ∀ j, a ≤ j → j < p.word * B + p.bit → bitAt B v j = false
  here : (p.word = v.length ∧ p.bit = 0) ∨ (p.word < v.length ∧ bitAt B v (p.word * B + p.bit) = true)

theorem bitAt_word {B : Nat} (hB : 0 < B) {v : List Nat} {w b : Nat} (hb : b < B) :
    bitAt B v (w * B + b) = (v.getD w 0).testBit b := by
  unfold bitAt
  have h1 : (w * B + b) / B = w := by
    rw [Nat.mul_comm, Nat.mul_add_div hB, Nat.div_eq_of_lt hb, Nat.add_zero]
  have h2 : (w * B + b) % B = b := by rw [Nat.mul_comm, Nat.mul_add_mod, Nat.mod_eq_of_lt hb]
  rw [h1, h2]

theorem index_split {B j : Nat} (hB : 0 < B) : j = (j / B) * B + j % B ∧ j % B < B :=
  ⟨by rw [Nat.mul_comm]; exact (Nat.div_add_mod j B).symm, Nat.mod_lt _ hB⟩

theorem searchNext_spec {B : Nat} (hB : 0 < B) {v : List Nat} (hv : Fits B v) (word : Nat) (hw : word ≤ v.length) :
    FirstFrom B v (word * B) (searchNext v word) := by
  induction hk : v.length - word generalizing word with
  | zero =>
    have : word = v.length := by omega
    subst this
    unfold searchNext
    rw [dif_neg (by omega)]
    exact ⟨hB, by simp, fun j h1 h2 => by simp at h2; omega, .inl ⟨rfl, rfl⟩⟩
  | succ k ih =>
    have hlt : word < v.length := by omega
    unfold searchNext
    rw [dif_pos hlt]
    by_cases c : v[word] ≠ 0
    · rw [if_pos c]
      obtain ⟨h1, h2⟩ := ctz_spec _ c
      have hb := ctz_lt c (hv _ (List.getElem_mem hlt))
      refine ⟨hb, Nat.le_add_right _ _, ?_, .inr ⟨hlt, ?_⟩⟩
      · intro j hj1 hj2
        have hj2 : j < word * B + ctz v[word] := hj2
        obtain ⟨b, rfl⟩ : ∃ b, j = word * B + b := ⟨j - word * B, by omega⟩
        rw [bitAt_word hB (by omega), List.getD_eq_getElem?_getD, List.getElem?_eq_getElem hlt]
        exact h2 b (by omega)
      · show bitAt B v (word * B + ctz v[word]) = true
        rw [bitAt_word hB hb, List.getD_eq_getElem?_getD, List.getElem?_eq_getElem hlt]
        exact h1
    · rw [if_neg c]
      have h0 : v[word] = 0 := by omega
      obtain ⟨a1, a2, a3, a4⟩ := ih (word + 1) (by omega) (by omega)
      rw [Nat.add_mul, Nat.one_mul] at a2 a3
      refine ⟨a1, by omega, ?_, a4⟩
      intro j hj1 hj2
      rcases Nat.lt_or_ge j (word * B + B) with c2 | c2
      · obtain ⟨b, rfl⟩ : ∃ b, j = word * B + b := ⟨j - word * B, by omega⟩
        rw [bitAt_word hB (by omega), List.getD_eq_getElem?_getD, List.getElem?_eq_getElem hlt, h0]; simp
      · exact a3 j c2 hj2

theorem next_spec {B : Nat} (hB : 0 < B) {v : List Nat} (hv : Fits B v) (p : Pos) (hp : p.word < v.length) (hb : p.bit < B) :
    ∃ q, next B v p = .ok q ∧ FirstFrom B v (p.word * B + p.bit + 1) q := by
  have hget : v.getD p.word 0 = v[p.word] := by
    rw [List.getD_eq_getElem?_getD, List.getElem?_eq_getElem hp]; rfl
  unfold next
  -- the slow path, when no later bit of the current word is set
  have slow : (∀ b, p.bit < b → b < B → v[p.word].testBit b = false) →
      FirstFrom B v (p.word * B + p.bit + 1) (searchNext v (p.word + 1)) := by
    intro hz
    obtain ⟨a1, a2, a3, a4⟩ := searchNext_spec hB hv (p.word + 1) (by omega)
    rw [Nat.add_mul, Nat.one_mul] at a2 a3
    refine ⟨a1, by omega, ?_, a4⟩
    intro j hj1 hj2
    rcases Nat.lt_or_ge j (p.word * B + B) with c2 | c2
    · obtain ⟨b, rfl⟩ : ∃ b, j = p.word * B + b := ⟨j - p.word * B, by omega⟩
      rw [bitAt_word hB (by omega), hget]
      exact hz b (by omega) (by omega)
    · exact a3 j c2 hj2
  by_cases c : p.word < v.length ∧ p.bit + 1 < B
  · rw [if_pos c, vget_of_lt hp, res_bind_ok]
    by_cases d : v[p.word] >>> (p.bit + 1) ≠ 0
    · rw [if_pos d]
      obtain ⟨h1, h2⟩ := ctz_spec _ d
      rw [Nat.testBit_shiftRight] at h1
      have hlt : p.bit + 1 + ctz (v[p.word] >>> (p.bit + 1)) < B := by
        rcases Nat.lt_or_ge (p.bit + 1 + ctz (v[p.word] >>> (p.bit + 1))) B with e | e
        · exact e
        · rw [Nat.testBit_lt_two_pow (Nat.lt_of_lt_of_le (hv _ (List.getElem_mem hp)) (Nat.pow_le_pow_right (by omega) e))] at h1
          cases h1
      refine ⟨_, rfl, hlt, ?_, ?_, .inr ⟨hp, ?_⟩⟩
      · show p.word * B + p.bit + 1 ≤ p.word * B + (p.bit + 1 + ctz (v[p.word] >>> (p.bit + 1)))
        omega
      · intro j hj1 hj2
        have hj2 : j < p.word * B + (p.bit + 1 + ctz (v[p.word] >>> (p.bit + 1))) := hj2
        obtain ⟨b, rfl⟩ : ∃ b, j = p.word * B + (p.bit + 1 + b) := ⟨j - p.word * B - (p.bit + 1), by omega⟩
        rw [bitAt_word hB (by omega), hget]
        have := h2 b (by omega)
        rwa [Nat.testBit_shiftRight] at this
      · show bitAt B v (p.word * B + (p.bit + 1 + ctz (v[p.word] >>> (p.bit + 1)))) = true
        rw [bitAt_word hB hlt, hget]
        exact h1
    · rw [if_neg d]
      refine ⟨_, rfl, slow ?_⟩
      intro b hb1 hb2
      have d' : v[p.word] >>> (p.bit + 1) = 0 := by omega
      have : (v[p.word] >>> (p.bit + 1)).testBit (b - (p.bit + 1)) = false := by rw [d']; simp
      rw [Nat.testBit_shiftRight] at this
      rwa [show p.bit + 1 + (b - (p.bit + 1)) = b by omega] at this
  · rw [if_neg c]
    exact ⟨_, rfl, slow (fun b h1 h2 => by omega)⟩

/-- The members in the words `[b, e)`, in increasing order. -/
def membersIn (B : Nat) (v : List Nat) (b e : Nat) : List Nat :=
  (List.range' (b * B) (e * B - b * B)).filter (bitAt B v)

theorem filter_range'_eq_cons {P : Nat → Bool} {a n x : Nat} {xs : List Nat}
    (h : (List.range' a n).filter P = x :: xs) :
    a ≤ x ∧ x < a + n ∧ P x = true ∧ (∀ j, a ≤ j → j < x → P j = false) ∧
      xs = (List.range' (x + 1) (a + n - (x + 1))).filter P := by
  induction n generalizing a with
  | zero => simp at h
  | succ n ih =>
    rw [List.range'_succ, List.filter_cons] at h
    by_cases c : P a = true
    · rw [if_pos c] at h
      injection h with h1 h2
      subst h1
      refine ⟨by omega, by omega, c, fun j h1 h2 => by omega, ?_⟩
      rw [← h2, show a + (n + 1) - (a + 1) = n by omega]
    · rw [if_neg c] at h
      obtain ⟨k1, k2, k3, k4, k5⟩ := ih h
      refine ⟨by omega, by omega, k3, ?_, by rw [k5]; congr 2; omega⟩
      intro j h1 h2
      rcases Nat.lt_or_ge j (a + 1) with e | e
      · have : j = a := by omega
        subst this; simpa using c
      · exact k4 j e h2

theorem filter_range'_eq_nil {P : Nat → Bool} {a n : Nat} (h : (List.range' a n).filter P = []) :
    ∀ j, a ≤ j → j < a + n → P j = false := by
  intro j h1 h2
  have := List.filter_eq_nil_iff.1 h j (List.mem_range'_1.2 ⟨h1, h2⟩)
  simpa using this

theorem pos_eq {B : Nat} {p q : Pos} (hp : p.bit < B) (hq : q.bit < B) (h : p.word * B + p.bit = q.word * B + q.bit) : p = q := by
  have hB : 0 < B := by omega
  have e1 : (p.word * B + p.bit) / B = p.word := by
    rw [Nat.mul_comm, Nat.mul_add_div hB, Nat.div_eq_of_lt hp, Nat.add_zero]
  have e2 : (q.word * B + q.bit) / B = q.word := by
    rw [Nat.mul_comm, Nat.mul_add_div hB, Nat.div_eq_of_lt hq, Nat.add_zero]
  have hw : p.word = q.word := by rw [← e1, ← e2, h]
  have hb : p.bit = q.bit := by rw [hw] at h; omega
  cases p; cases q; simp_all

theorem bitAt_past {B : Nat} (hB : 0 < B) {v : List Nat} {j : Nat} (h : v.length * B ≤ j) : bitAt B v j = false := by
  unfold bitAt
  have : v.length ≤ j / B := (Nat.le_div_iff_mul_le hB).2 h
  rw [List.getD_eq_getElem?_getD, List.getElem?_eq_none this]; simp

/-- C47. Iterating a `non_zero_range` over the words `[b, e)` — the whole vector, or any part obtained by splitting — visits the members in these
words, each once, in increasing order, and stops. -/
theorem non_zeros_iteration (B : Nat) (hB : 0 < B) (v : List Nat) (hv : Fits B v) (b e : Nat) (hbe : b ≤ e) (he : e ≤ v.length) :
    (rangeIter B v e).Visits (rangeBegin v b) (.ok (membersIn B v b e)) := by
  have hE := searchNext_spec hB hv e he
  have hmul : b * B ≤ e * B := Nat.mul_le_mul_right _ hbe
  have hmul2 : e * B ≤ v.length * B := Nat.mul_le_mul_right _ he
  refine Iter.visits_of _ (fun p xs => ∃ a, FirstFrom B v a p ∧ a ≤ e * B ∧
    xs = (List.range' a (e * B - a)).filter (bitAt B v)) ?_ ?_ ⟨b * B, searchNext_spec hB hv b (by omega), hmul, rfl⟩
  · rintro p ⟨a, hF, ha, hxs⟩
    have hnone := filter_range'_eq_nil hxs.symm
    have : p = searchNext v e := by
      apply pos_eq hF.bit hE.bit
      -- both are the first member from `e * B` on
      have hge : e * B ≤ p.word * B + p.bit := by
        rcases Nat.lt_or_ge (p.word * B + p.bit) (e * B) with c | c
        · rcases hF.here with ⟨h1, h2⟩ | ⟨h1, h2⟩
          · rw [h1, h2] at c; omega
          · rw [hnone _ hF.ge (by omega)] at h2; cases h2
        · exact c
      rcases Nat.lt_trichotomy (p.word * B + p.bit) ((searchNext v e).word * B + (searchNext v e).bit) with c | c | c
      · have hf := hE.none_before _ hge c
        rcases hF.here with ⟨h1, h2⟩ | ⟨h1, h2⟩
        · rcases hE.here with ⟨g1, g2⟩ | ⟨g1, g2⟩
          · rw [h1, h2, g1, g2] at c; omega
          · have : ((searchNext v e).word + 1) * B ≤ v.length * B := Nat.mul_le_mul_right _ g1
            rw [Nat.add_mul, Nat.one_mul] at this
            have := hE.bit
            rw [h1, h2] at c; omega
        · rw [hf] at h2; cases h2
      · exact c
      · have hf := hF.none_before _ (by have := hE.ge; omega) c
        rcases hE.here with ⟨g1, g2⟩ | ⟨g1, g2⟩
        · rcases hF.here with ⟨h1, h2⟩ | ⟨h1, h2⟩
          · rw [h1, h2, g1, g2] at c; omega
          · have : (p.word + 1) * B ≤ v.length * B := Nat.mul_le_mul_right _ h1
            rw [Nat.add_mul, Nat.one_mul] at this
            have := hF.bit
            rw [g1, g2] at c; omega
        · rw [hf] at g2; cases g2
    simp [rangeIter, this]
  · rintro p x xs ⟨a, hF, ha, hxs⟩
    obtain ⟨k1, k2, k3, k4, k5⟩ := filter_range'_eq_cons hxs.symm
    have hpx : p.word * B + p.bit = x := by
      rcases Nat.lt_trichotomy (p.word * B + p.bit) x with c | c | c
      · have := k4 _ hF.ge c
        rcases hF.here with ⟨h1, h2⟩ | ⟨h1, h2⟩
        · rw [h1, h2] at c
          rw [bitAt_past hB (by omega)] at k3; cases k3
        · rw [this] at h2; cases h2
      · exact c
      · rw [hF.none_before x k1 c] at k3; cases k3
    have hpw : p.word < v.length := by
      rcases hF.here with ⟨h1, h2⟩ | ⟨h1, _⟩
      · rw [h1, h2] at hpx
        rw [bitAt_past hB (by omega)] at k3; cases k3
      · exact h1
    obtain ⟨q, hq1, hq2⟩ := next_spec hB hv p hpw hF.bit
    refine ⟨?_, by simp [rangeIter, hpx], q, hq1, x + 1, by rw [← hpx]; exact hq2, by omega, ?_⟩
    · have : p ≠ searchNext v e := by
        intro h
        have := hE.ge
        rw [← h] at this
        omega
      simp [rangeIter, this]
    · rw [k5]; congr 2; omega

/-- The members of consecutive word ranges together are the members of their union. -/
theorem membersIn_append (B : Nat) (v : List Nat) (b m e : Nat) (h1 : b ≤ m) (h2 : m ≤ e) :
    membersIn B v b m ++ membersIn B v m e = membersIn B v b e := by
  unfold membersIn
  have k1 : b * B ≤ m * B := Nat.mul_le_mul_right _ h1
  have k2 : m * B ≤ e * B := Nat.mul_le_mul_right _ h2
  rw [← List.filter_append]
  congr 1
  have h := List.range'_append (s := b * B) (m := m * B - b * B) (n := e * B - m * B) (step := 1)
  rw [Nat.one_mul, show b * B + (m * B - b * B) = m * B by omega,
    show m * B - b * B + (e * B - m * B) = e * B - b * B by omega] at h
  exact h

theorem mem_membersIn (B : Nat) (v : List Nat) (b e j : Nat) :
    j ∈ membersIn B v b e ↔ b * B ≤ j ∧ j < e * B ∧ bitAt B v j = true := by
  unfold membersIn
  rw [List.mem_filter, List.mem_range'_1]
  generalize e * B = x
  generalize b * B = y
  constructor
  · rintro ⟨⟨h1, h2⟩, h3⟩; exact ⟨h1, by omega, h3⟩
  · rintro ⟨h1, h2, h3⟩; exact ⟨⟨h1, by omega⟩, h3⟩

theorem membersIn_increasing (B : Nat) (v : List Nat) (b e : Nat) : (membersIn B v b e).Pairwise (· < ·) :=
  (List.pairwise_lt_range' (s := b * B) (n := e * B - b * B) (step := 1)).sublist List.filter_sublist

example : Fits 8 [0, 130, 0, 1] ∧ membersIn 8 [0, 130, 0, 1] 0 4 = [9, 15, 24] ∧
    membersIn 8 [0, 130, 0, 1] 1 3 = [9, 15] := by
  refine ⟨?_, by decide, by decide⟩
  intro w hw; simp at hw; omega

end NW.BitVec'
