import Verif.Model.Util
import Verif.Lemmas.ListRes
import Mathlib.Algebra.BigOperators.Group.List.Basic
import Mathlib.Algebra.Order.Group.Unbundled.Int

/-! # C33, C44, C45, C46, C48, C49: utilities -/

namespace NW.Util

/-! ## C33 -/

/-- The common elements of two lists with multiplicity. -/
def Common (xs ys zs : List Nat) : Prop :=
  zs.Sublist xs ∧ zs.Sublist ys ∧ ∀ v, zs.count v = min (xs.count v) (ys.count v)

theorem not_mem_of_lt_sorted {x : Nat} {ys : List Nat} (hs : ys.Pairwise (· ≤ ·)) {y : Nat} (h : ys.head? = some y) (hxy : x < y) :
    ys.count x = 0 := by
  cases ys with
  | nil => rfl
  | cons a as =>
    simp at h; subst h
    rw [List.count_eq_zero]
    intro hm
    rcases List.mem_cons.1 hm with rfl | hm
    · omega
    · have := (List.pairwise_cons.1 hs).1 x hm; omega

theorem intersectionLoop_spec (xs ys : List Nat) (hx : xs.Pairwise (· ≤ ·)) (hy : ys.Pairwise (· ≤ ·)) (i j n : Nat)
    (hi : i ≤ xs.length) (hj : j ≤ ys.length) :
    ∃ zs, intersectionLoop xs ys i j n = .ok (n + zs.length) ∧ Common (xs.drop i) (ys.drop j) zs := by
  induction hk : (xs.length - i) + (ys.length - j) using Nat.strongRecOn generalizing i j n with
  | ind k ih =>
    unfold intersectionLoop
    by_cases h : i ≠ xs.length ∧ j ≠ ys.length
    · have hi' : i < xs.length := by omega
      have hj' : j < ys.length := by omega
      simp only [dif_pos h, if_pos (show i < xs.length ∧ j < ys.length from ⟨hi', hj'⟩), vget_of_lt hi', vget_of_lt hj', res_bind_ok]
      have dx : xs.drop i = xs[i] :: xs.drop (i + 1) := List.drop_eq_getElem_cons hi'
      have dy : ys.drop j = ys[j] :: ys.drop (j + 1) := List.drop_eq_getElem_cons hj'
      have sx : (xs.drop i).Pairwise (· ≤ ·) := hx.sublist (List.drop_sublist _ _)
      have sy : (ys.drop j).Pairwise (· ≤ ·) := hy.sublist (List.drop_sublist _ _)
      by_cases c1 : xs[i] < ys[j]
      · rw [if_pos c1]
        obtain ⟨zs, e, h1, h2, h3⟩ := ih _ (by omega) (i + 1) j n (by omega) hj rfl
        refine ⟨zs, e, ?_, h2, ?_⟩
        · rw [dx]; exact h1.trans (List.sublist_cons_self _ _)
        · intro v
          rw [h3, dx, List.count_cons]
          by_cases hv : xs[i] = v
          · have := not_mem_of_lt_sorted sy (y := ys[j]) (by rw [dy]; rfl) (x := v) (by omega)
            rw [this]; simp
          · simp [hv]
      · rw [if_neg c1]
        by_cases c2 : ys[j] < xs[i]
        · rw [if_pos c2]
          obtain ⟨zs, e, h1, h2, h3⟩ := ih _ (by omega) i (j + 1) n hi (by omega) rfl
          refine ⟨zs, e, h1, ?_, ?_⟩
          · rw [dy]; exact h2.trans (List.sublist_cons_self _ _)
          · intro v
            rw [h3, dy, List.count_cons]
            by_cases hv : ys[j] = v
            · have := not_mem_of_lt_sorted sx (y := xs[i]) (by rw [dx]; rfl) (x := v) (by omega)
              rw [this]; simp
            · simp [hv]
        · rw [if_neg c2]
          have heq : xs[i] = ys[j] := by omega
          obtain ⟨zs, e, h1, h2, h3⟩ := ih _ (by omega) (i + 1) (j + 1) (n + 1) (by omega) (by omega) rfl
          refine ⟨xs[i] :: zs, by rw [e, List.length_cons]; congr 1; omega, ?_, ?_, ?_⟩
          · rw [dx]; exact h1.cons_cons _
          · rw [dy, heq]; exact h2.cons_cons _
          · intro v
            rw [dx, dy, List.count_cons, List.count_cons, List.count_cons, h3, heq]
            split <;> omega
    · rw [dif_neg h]
      refine ⟨[], rfl, List.nil_sublist _, List.nil_sublist _, ?_⟩
      intro v
      have : xs.drop i = [] ∨ ys.drop j = [] := by
        by_cases c : i = xs.length
        · left; rw [c]; simp
        · right
          have : j = ys.length := by omega
          rw [this]; simp
      rcases this with h | h <;> simp [h]

/-- C33. For non-decreasing sequences, `intersection_size` stays inside both and returns the size of their intersection with
multiplicity: there is a common subsequence `zs` containing each value as often as in the sequence with fewer copies, and the
result is its length. -/
theorem intersection_size_multiset (xs ys : List Nat) (hx : xs.Pairwise (· ≤ ·)) (hy : ys.Pairwise (· ≤ ·)) :
    ∃ zs, intersectionSize xs ys = .ok zs.length ∧ Common xs ys zs := by
  obtain ⟨zs, h1, h2⟩ := intersectionLoop_spec xs ys hx hy 0 0 0 (by omega) (by omega)
  exact ⟨zs, by rw [intersectionSize, h1, Nat.zero_add], by simpa using h2⟩

/-- C33. For strictly increasing sequences it is the number of common elements. -/
theorem intersection_size_set (xs ys : List Nat) (hx : xs.Pairwise (· < ·)) (hy : ys.Pairwise (· < ·)) :
    intersectionSize xs ys = .ok (xs.filter fun x => decide (x ∈ ys)).length := by
  obtain ⟨zs, h1, h2, h3, h4⟩ := intersection_size_multiset xs ys (hx.imp Nat.le_of_lt) (hy.imp Nat.le_of_lt)
  rw [h1]
  congr 1
  have nx : xs.Nodup := hx.imp Nat.ne_of_lt
  have ny : ys.Nodup := hy.imp Nat.ne_of_lt
  apply List.Perm.length_eq
  rw [List.perm_iff_count]
  intro v
  rw [h4]
  by_cases c : v ∈ ys
  · rw [List.count_filter (by simpa using c)]
    have := List.nodup_iff_count.1 nx v
    have : 0 < ys.count v := List.count_pos_iff.2 c
    omega
  · have : ys.count v = 0 := List.count_eq_zero.2 c
    have h0 : (xs.filter fun x => decide (x ∈ ys)).count v = 0 := by
      rw [List.count_eq_zero]
      intro hm
      exact c (by simpa using (List.mem_filter.1 hm).2)
    rw [this, h0]; simp

example : [1, 3, 5, 9].Pairwise (· < ·) ∧ [0, 3, 9].Pairwise (· < ·) ∧ [1, 1, 3].Pairwise (· ≤ ·) := by decide

example : intersectionSize [1, 3, 5, 9] [0, 3, 9] = .ok 2 := by
  rw [intersection_size_set _ _ (by decide) (by decide)]; decide

/-! ## C44 -/

theorem ceilLog2_ok {w v : Nat} (hw : v < 2 ^ w) (hv : v ≠ 0) :
    ∃ k, ceilLog2 w v = .ok k ∧ v ≤ 2 ^ k ∧ ∀ m, v ≤ 2 ^ m → k ≤ m := by
  have hl : 2 ^ v.log2 ≤ v := Nat.log2_self_le hv
  have hu : v < 2 ^ (v.log2 + 1) := Nat.lt_log2_self
  have hlw : v.log2 < w := by
    have : 2 ^ v.log2 < 2 ^ w := by omega
    exact (Nat.pow_lt_pow_iff_right (by omega)).1 this
  have hc : w - 1 - clz w v = v.log2 := by unfold clz; omega
  unfold ceilLog2
  rw [hc]
  simp only [check, hv, decide_true, if_true, ne_eq, not_false_eq_true, res_bind_ok, res_pure]
  by_cases hp : v &&& (v - 1) = 0
  · obtain ⟨k, hk⟩ := (Nat.and_sub_one_eq_zero_iff_isPowerOfTwo hv).1 hp
    simp only [hp]
    have hkl : v.log2 = k := by rw [hk, Nat.log2_two_pow]
    refine ⟨_, rfl, by simp [hkl, ← hk], ?_⟩
    intro m hm
    have : 2 ^ v.log2 ≤ 2 ^ m := by omega
    simpa using (Nat.pow_le_pow_iff_right (by omega)).1 this
  · refine ⟨v.log2 + 1, by simp [hp], by omega, ?_⟩
    intro m hm
    have hne : v ≠ 2 ^ v.log2 := fun h => hp ((Nat.and_sub_one_eq_zero_iff_isPowerOfTwo hv).2 ⟨_, h⟩)
    have : 2 ^ v.log2 < 2 ^ m := by omega
    exact (Nat.pow_lt_pow_iff_right (by omega)).1 this

/-- C44 (partial): for 64-bit `v` from 1 to `2 ^ 62`, `pow2(ceil_log2(v))` is the least power of two that is at least `v`.
Missing for the full C44: `2 ^ 62 < v ≤ 2 ^ 63`, where the result `2 ^ 63` is representable but the assertion in `pow2` fails
(`pow2_ceil_log2_asserts`). -/
theorem pow2_ceil_log2_partial (v : Nat) (h1 : 1 ≤ v) (h2 : v ≤ 2 ^ 62) :
    ∃ k p, ceilLog2 64 v = .ok k ∧ pow2 64 k = .ok p ∧ p = 2 ^ k ∧ v ≤ p ∧ ∀ m, v ≤ 2 ^ m → p ≤ 2 ^ m := by
  obtain ⟨k, e, hk, hm⟩ := ceilLog2_ok (w := 64) (v := v) (by omega) (by omega)
  have hk62 : k ≤ 62 := hm 62 h2
  have hlt : 2 ^ k < 2 ^ 64 := Nat.pow_lt_pow_right (by omega) (by omega)
  refine ⟨k, 2 ^ k, e, ?_, rfl, hk, ?_⟩
  · unfold pow2
    have hc : (0 : Int) ≤ k ∧ (k : Int) < ((64 : Nat) : Int) - 1 := ⟨by omega, by omega⟩
    simp only [check, decide_eq_true hc, if_true, res_bind_ok, Int.toNat_natCast, Nat.one_shiftLeft, Nat.mod_eq_of_lt hlt]
    rfl
  · intro m h
    exact Nat.pow_le_pow_right (by omega) (hm m h)

/-- C44, negated for large `v`: between `2 ^ 62 + 1` and `2 ^ 63` the least power of two is the 64-bit number `2 ^ 63`, but the
assertion fails. -/
theorem pow2_ceil_log2_asserts (v : Nat) (h1 : 2 ^ 62 < v) (h2 : v ≤ 2 ^ 63) :
    ceilLog2 64 v = .ok 63 ∧ pow2 64 63 = .error .assertFailed := by
  obtain ⟨k, e, hk, hm⟩ := ceilLog2_ok (w := 64) (v := v) (by omega) (by omega)
  have h63 : k ≤ 63 := hm 63 h2
  have : ¬ k ≤ 62 := by
    intro hc
    have : 2 ^ k ≤ 2 ^ 62 := Nat.pow_le_pow_right (by omega) hc
    omega
  have : k = 63 := by omega
  subst this
  exact ⟨e, by decide⟩

/-- `log2` is the rounded-down logarithm. -/
theorem log2_floor (v : Nat) (h1 : 1 ≤ v) (h2 : v < 2 ^ 64) : ∃ k, log2 v = .ok k ∧ 2 ^ k ≤ v ∧ v < 2 ^ (k + 1) := by
  have hl : v.log2 < 64 := by
    have : 2 ^ v.log2 < 2 ^ 64 := by have := Nat.log2_self_le (show v ≠ 0 by omega); omega
    exact (Nat.pow_lt_pow_iff_right (by omega)).1 this
  refine ⟨v.log2, ?_, Nat.log2_self_le (by omega), Nat.lt_log2_self⟩
  have : 63 - clz 64 v = v.log2 := by unfold clz; omega
  simp [log2, check, this, show v ≠ 0 by omega]

example : ceilLog2 64 1000 = .ok 10 ∧ pow2 64 10 = .ok 1024 := by
  refine ⟨?_, by decide⟩
  have h : Nat.log2 1000 = 9 := by rw [Nat.log2_eq_iff] <;> decide
  simp [ceilLog2, clz, h, check]

/-! ## C45 -/

/-- Lower end of block `id` when `N` elements are dealt to `n` blocks, the first `N % n` getting one more. -/
def cut (N n id : Nat) : Nat := id * (N / n) + min id (N % n)

theorem cut_le (N n id : Nat) (hid : id ≤ n) : cut N n id ≤ N := by
  have h1 : N / n * n + N % n = N := by rw [Nat.mul_comm]; exact Nat.div_add_mod N n
  have h2 : id * (N / n) ≤ N / n * n := by rw [Nat.mul_comm (N / n)]; exact Nat.mul_le_mul_right _ hid
  unfold cut; omega

theorem cut_last (N n : Nat) (hn : 0 < n) : cut N n n = N := by
  have h1 : n * (N / n) + N % n = N := Nat.div_add_mod N n
  have := Nat.mod_lt N hn
  unfold cut; omega

theorem block_eq (w N n id : Nat) (hn : 1 ≤ n) (hN : N < 2 ^ w) (hn' : n < 2 ^ w) (hid : id < n) :
    block w N n id = .ok (cut N n id, cut N n (id + 1)) := by
  have c1 := cut_le N n id (by omega)
  have c2 := cut_le N n (id + 1) (by omega)
  have e1 : (id * (N / n) + min id (N % n)) % 2 ^ w = cut N n id := by
    show cut N n id % 2 ^ w = _
    exact Nat.mod_eq_of_lt (by omega)
  have e0 : (id + 1) % 2 ^ w = id + 1 := Nat.mod_eq_of_lt (by omega)
  have e2 : ((id + 1) * (N / n) + min (id + 1) (N % n)) % 2 ^ w = cut N n (id + 1) := by
    show cut N n (id + 1) % 2 ^ w = _
    exact Nat.mod_eq_of_lt (by omega)
  unfold block
  rw [if_neg (by omega)]
  simp only [e0, e1, e2]
  have k1 : id ≠ 0 ∨ cut N n id = 0 := by
    by_cases c : id = 0
    · right; subst c; simp [cut]
    · left; exact c
  have k2 : id ≠ (N + 2 ^ w - 1) % 2 ^ w ∨ cut N n (id + 1) = N := by
    rcases Nat.eq_zero_or_pos N with h0 | h0
    · left
      subst h0
      rw [Nat.mod_eq_of_lt (by have := Nat.two_pow_pos w; omega)]
      omega
    · have : (N + 2 ^ w - 1) % 2 ^ w = N - 1 := by
        rw [show N + 2 ^ w - 1 = (N - 1) + 2 ^ w by omega, Nat.add_mod_right, Nat.mod_eq_of_lt (by omega)]
      rw [this]
      by_cases c : id = N - 1
      · right
        have hid' : id + 1 = N := by omega
        rw [hid']
        rcases Nat.lt_or_ge N n with hlt | hge
        · simp [cut, Nat.div_eq_of_lt hlt, Nat.mod_eq_of_lt hlt]
        · have : N = n := by omega
          subst this
          exact cut_last N N h0
      · left; exact c
  simp [check, k1, k2]

/-- C45. For `n ≥ 1` blocks, no assertion fires and no division by zero happens; the ranges of ids `0 .. n - 1` start at 0, each starts
where the one before ends, the last ends at `N`, they are not reversed, and two sizes differ by at most one. -/
theorem block_partitions (w N n : Nat) (hn : 1 ≤ n) (hN : N < 2 ^ w) (hn' : n < 2 ^ w) :
    ∃ b : Nat → Nat × Nat, (∀ id, id < n → block w N n id = .ok (b id)) ∧ (b 0).1 = 0 ∧ (b (n - 1)).2 = N ∧
      (∀ id, id + 1 < n → (b (id + 1)).1 = (b id).2) ∧ (∀ id, id < n → (b id).1 ≤ (b id).2) ∧
      (∀ i j, i < n → j < n → (b i).2 - (b i).1 ≤ (b j).2 - (b j).1 + 1) := by
  have hs : ∀ id, cut N n (id + 1) = cut N n id + (N / n + if id < N % n then 1 else 0) := by
    intro id
    unfold cut
    rw [Nat.add_mul, Nat.one_mul]
    split <;> omega
  refine ⟨fun id => (cut N n id, cut N n (id + 1)), fun id hid => block_eq w N n id hn hN hn' hid, by simp [cut], ?_,
    fun _ _ => rfl, ?_, ?_⟩
  · show cut N n (n - 1 + 1) = N
    rw [show n - 1 + 1 = n by omega]; exact cut_last N n hn
  · intro id _
    show cut N n id ≤ cut N n (id + 1)
    rw [hs]; exact Nat.le_add_right _ _
  · intro i j _ _
    show cut N n (i + 1) - cut N n i ≤ cut N n (j + 1) - cut N n j + 1
    rw [hs, hs]
    split <;> split <;> omega

example : (List.range 4).map (fun id => (block 64 10 4 id).toOption) =
    [some (0, 3), some (3, 6), some (6, 8), some (8, 10)] := by decide

/-! ## C46 -/

theorem seqReduce_shift {ε T : Type} (op : ε → T) (reduce : T → T → T)
    (hassoc : ∀ a b c, reduce (reduce a b) c = reduce a (reduce b c)) (xs : List ε) (a b : T) :
    seqReduce op reduce xs (reduce a b) = reduce a (seqReduce op reduce xs b) := by
  unfold seqReduce
  induction xs generalizing b with
  | nil => rfl
  | cons x xs ih => rw [List.foldl_cons, List.foldl_cons, hassoc, ih]

theorem seqReduce_append {ε T : Type} (op : ε → T) (reduce : T → T → T) (xs ys : List ε) (p : T) :
    seqReduce op reduce (xs ++ ys) p = seqReduce op reduce ys (seqReduce op reduce xs p) := by
  simp [seqReduce]

/-- C46 (partial): if `reduce` is associative and `init` is an identity of it, then every splitting and every assignment of
the parts to bodies gives the sequential reduction.
Missing for the full C46: other initial values, for which it is false (`parallel_reduce_repeats_init`). -/
theorem parallel_reduce_partial {ε T : Type} (op : ε → T) (reduce : T → T → T) (init : T)
    (hassoc : ∀ a b c, reduce (reduce a b) c = reduce a (reduce b c)) (hid : ∀ a, reduce a init = a)
    (divisible : Bool) (t : Splitting ε) :
    parallelReduce op reduce init divisible t = seqReduce op reduce t.elems init := by
  unfold parallelReduce
  cases divisible
  · rfl
  · simp only [if_true]
    have : ∀ p, tbbReduce op reduce init t p = seqReduce op reduce t.elems p := by
      induction t with
      | leaf xs => intro p; rfl
      | node stolen l r ihl ihr =>
        intro p
        cases stolen
        · simp only [tbbReduce, ihl, ihr, Splitting.elems, seqReduce_append]
        · simp only [tbbReduce, ihl, ihr, Splitting.elems, seqReduce_append]
          rw [← seqReduce_shift op reduce hassoc, hid]
    exact this init

/-- The number of parts executed by a fresh body. -/
def Splitting.steals {ε : Type} : Splitting ε → Nat
  | .leaf _ => 0
  | .node stolen l r => l.steals + r.steals + if stolen then 1 else 0

/-- What `parallel_reduce` computes for any initial value: the sequential reduction with the initial value
combined in once more for every fresh body. -/
theorem parallel_reduce_characterised {ε T : Type} (op : ε → T) (reduce : T → T → T) (init : T)
    (hassoc : ∀ a b c, reduce (reduce a b) c = reduce a (reduce b c)) (hcomm : ∀ a b, reduce a b = reduce b a)
    (t : Splitting ε) :
    parallelReduce op reduce init true t =
      (List.replicate t.steals init).foldl reduce (seqReduce op reduce t.elems init) := by
  have hfold : ∀ (k : Nat) (a b : T), (List.replicate k init).foldl reduce (reduce a b) =
      reduce a ((List.replicate k init).foldl reduce b) := by
    intro k
    induction k with
    | zero => intro a b; rfl
    | succ k ih => intro a b; rw [List.replicate_succ, List.foldl_cons, List.foldl_cons, hassoc, ih]
  have hseq : ∀ (xs : List ε) (k : Nat) (p : T), seqReduce op reduce xs ((List.replicate k init).foldl reduce p) =
      (List.replicate k init).foldl reduce (seqReduce op reduce xs p) := by
    intro xs k
    induction k with
    | zero => intro p; rfl
    | succ k ih =>
      intro p
      rw [List.replicate_succ, List.foldl_cons, List.foldl_cons, ih, hcomm p init, seqReduce_shift op reduce hassoc,
        hcomm init]
  have : ∀ p, tbbReduce op reduce init t p =
      (List.replicate t.steals init).foldl reduce (seqReduce op reduce t.elems p) := by
    induction t with
    | leaf xs => intro p; rfl
    | node stolen l r ihl ihr =>
      intro p
      cases stolen
      · simp only [tbbReduce, ihl, ihr, Splitting.elems, seqReduce_append, Splitting.steals, hseq]
        simp only [Bool.false_eq_true, if_false, Nat.add_zero]
        rw [← List.foldl_append, List.replicate_append_replicate]
      · simp only [tbbReduce, ihl, ihr, Splitting.elems, seqReduce_append, Splitting.steals, if_true]
        rw [← hfold, ← seqReduce_shift op reduce hassoc, hcomm _ init, ← hfold, hcomm, hseq]
        rw [← List.foldl_append, List.replicate_append_replicate]
        rw [hcomm _ init, seqReduce_shift op reduce hassoc, hfold]
        rw [Nat.add_comm, List.replicate_succ, List.foldl_cons, hcomm _ init, hfold, Nat.add_comm]
  simp only [parallelReduce, if_true, this]

/-- C46, negated: a sum with initial value 1 over `[1, 2]`, when the second half is executed by another thread. -/
theorem parallel_reduce_repeats_init :
    parallelReduce (fun x : Nat => x) (· + ·) 1 true (.node true (.leaf [1]) (.leaf [2])) = 5 ∧
    seqReduce (fun x : Nat => x) (· + ·) [1, 2] 1 = 4 := by decide

example : (∀ a b c : Nat, a + b + c = a + (b + c)) ∧ ∀ a : Nat, a + 0 = a := ⟨Nat.add_assoc, Nat.add_zero⟩

/-! ## C48 -/

variable {A : Type}

/-- The value after the completions `l`, in order. -/
def applied (add : A → A → A) (amt : List A) (x : A) (l : List (Nat × A)) : A :=
  l.foldl (fun acc c => match amt[c.1]? with
    | some u => add acc u
    | none => acc) x

theorem addRun_inv (add : A → A → A) (amt : List A) (x : A) (l : List (Nat × A)) (s : AddState A)
    (h : AddRun add amt (.init x amt.length) l s) :
    s.x = applied add amt x l ∧ (∀ k t e, l[k]? = some (t, e) → e = applied add amt x (l.take k)) ∧
    (l.map (·.1)).Nodup ∧ s.ph.length = amt.length ∧
    (∀ t, t ∈ l.map (·.1) → t < amt.length) ∧
    (∀ t e, s.ph[t]? = some (.done e) ↔ (t, e) ∈ l) := by
  induction h with
  | refl =>
    refine ⟨rfl, by simp, by simp, by simp [AddState.init], by simp, ?_⟩
    intro t e
    simp [AddState.init, List.getElem?_replicate]
  | tail hrun hstep ih =>
    obtain ⟨h1, h2, h3, h4, h5, h6⟩ := ih
    cases hstep with
    | load t ht =>
      rw [List.append_nil]
      refine ⟨h1, h2, h3, by simpa using h4, h5, ?_⟩
      intro t' e
      rw [← h6, List.getElem?_set]
      by_cases c : t = t'
      · subst c; simp [ht]
      · simp [c]
    | casFail t e' ht =>
      rw [List.append_nil]
      refine ⟨h1, h2, h3, by simpa using h4, h5, ?_⟩
      intro t' e
      rw [← h6, List.getElem?_set]
      by_cases c : t = t'
      · subst c; simp [ht]
      · simp [c]
    | casOk t e u ht he hu =>
      rename_i s' l0
      have htl : t < s'.ph.length := by
        rcases Nat.lt_or_ge t s'.ph.length with c | c
        · exact c
        · rw [List.getElem?_eq_none c] at ht; cases ht
      have hfresh : t ∉ l0.map (·.1) := by
        intro hm
        obtain ⟨⟨t', e'⟩, hm', rfl⟩ := List.mem_map.1 hm
        have := (h6 t' e').2 hm'
        rw [ht] at this; cases this
      refine ⟨?_, ?_, ?_, by simpa using h4, ?_, ?_⟩
      · simp only [applied, List.foldl_append, List.foldl_cons, List.foldl_nil, hu]
        rw [← he, h1]; rfl
      · intro k t' e' hk
        rcases Nat.lt_or_ge k l0.length with c | c
        · rw [List.getElem?_append_left c] at hk
          rw [List.take_append_of_le_length (by omega)]
          exact h2 k t' e' hk
        · rw [List.getElem?_append_right c] at hk
          have hk0 : k - l0.length = 0 := by
            rcases Nat.eq_zero_or_pos (k - l0.length) with c0 | c0
            · exact c0
            · rw [List.getElem?_eq_none (by simp; omega)] at hk; cases hk
          rw [hk0] at hk
          simp at hk
          have : k = l0.length := by omega
          subst this
          rw [List.take_left, ← hk.2, ← he, h1]
      · rw [List.map_append, List.nodup_append]
        refine ⟨h3, by simp, ?_⟩
        intro a ha b hb
        simp at hb; subst hb
        rintro rfl; exact hfresh ha
      · intro t' ht'
        rw [List.map_append, List.mem_append] at ht'
        rcases ht' with c | c
        · exact h5 t' c
        · simp at c; omega
      · intro t' e'
        rw [List.mem_append, ← h6, List.getElem?_set]
        by_cases c : t = t'
        · subst c
          rw [ht, if_pos rfl, if_pos htl]
          simp [eq_comm]
        · simp [c, Ne.symm c]

/-- C48. In every interleaving of any number of threads running the compare-and-swap `fetch_add`, including spurious failures: the
location holds the initial value with the amounts of the completed additions added in completion order; the `k`-th completion
returned the value before its own addition; and no thread completes twice. No law is needed of the addition, so this covers
floating point. -/
theorem fetch_add_linearizes (add : A → A → A) (amt : List A) (x : A) (l : List (Nat × A)) (s : AddState A)
    (h : AddRun add amt (.init x amt.length) l s) :
    s.x = applied add amt x l ∧ (∀ (k t : Nat) (e : A), l[k]? = some (t, e) → e = applied add amt x (l.take k)) ∧
    (l.map (·.1)).Nodup ∧ (∀ t e, s.ph[t]? = some (.done e) ↔ (t, e) ∈ l) := by
  obtain ⟨h1, h2, h3, _, _, h6⟩ := addRun_inv add amt x l s h
  exact ⟨h1, h2, h3, h6⟩

/-- C48. When the addition is associative and commutative and every thread has returned, the location holds the initial value plus the
sum of all amounts: no update is lost. -/
theorem fetch_add_total [AddCommMonoid A] (amt : List A) (x : A) (l : List (Nat × A)) (s : AddState A)
    (h : AddRun (· + ·) amt (.init x amt.length) l s)
    (hall : ∀ t, t < amt.length → ∃ e, s.ph[t]? = some (.done e)) : s.x = x + amt.sum := by
  obtain ⟨h1, _, h3, _, h5, h6⟩ := addRun_inv _ amt x l s h
  rw [h1]
  have hfold : ∀ (l : List (Nat × A)) (x : A), (∀ t ∈ l.map (·.1), t < amt.length) →
      applied (· + ·) amt x l = x + ((l.map (·.1)).map fun t => amt.getD t 0).sum := by
    intro l
    induction l with
    | nil => intro x _; simp [applied]
    | cons c l ih =>
      intro x hl
      have hc : c.1 < amt.length := hl c.1 (by simp)
      have := ih (x + amt.getD c.1 0) (fun t ht => hl t (by simp only [List.map_cons, List.mem_cons]; exact Or.inr ht))
      simp only [applied, List.foldl_cons, List.getElem?_eq_getElem hc] at this ⊢
      rw [List.getD_eq_getElem?_getD, List.getElem?_eq_getElem hc, Option.getD_some] at this
      rw [this]
      simp only [List.map_cons, List.sum_cons, List.getD_eq_getElem?_getD, List.getElem?_eq_getElem hc, Option.getD_some]
      rw [add_assoc]
  rw [hfold l x h5]
  congr 1
  have hperm : (l.map (·.1)).Perm (List.range amt.length) := by
    apply (List.perm_ext_iff_of_nodup h3 List.nodup_range).2
    intro t
    constructor
    · intro ht; simpa using h5 t ht
    · intro ht
      obtain ⟨e, he⟩ := hall t (by simpa using ht)
      exact List.mem_map_of_mem (f := (·.1)) ((h6 t e).1 he)
  rw [(hperm.map _).sum_eq]
  congr 1
  apply List.ext_getElem (by simp)
  intro i h1 h2
  simp [List.getElem?_eq_getElem h2]

/-- A run in which the second thread overtakes the first, whose compare-and-swap fails once. -/
example : AddRun (· + ·) [5, 7] (.init 1 2) [(1, 1), (0, 8)] (⟨13, [.done 8, .done 1]⟩ : AddState Nat) := by
  have r0 := AddRun.refl (add := (· + ·)) (amt := [5, 7]) (.init 1 2 : AddState Nat)
  have r1 := r0.tail (.load _ 0 rfl)
  have r2 := r1.tail (.load _ 1 rfl)
  have r3 := r2.tail (.casOk _ 1 1 7 rfl rfl rfl)
  have r4 := r3.tail (.casFail _ 0 1 rfl)
  exact r4.tail (.casOk _ 0 8 5 rfl rfl rfl)

/-! ## C49 -/

/-- The comparator on positions used by `proxysort`. -/
def viaProxy {β : Type} (comp : β → β → Bool) (x : List β) (a b : Nat) : Bool :=
  match x[a]?, x[b]? with
  | some u, some v => comp u v
  | _, _ => false

/-- C49 (partial): for a non-empty vector, `proxysort` returns a permutation of its positions along which the vector is sorted.
Missing for the full C49: the empty vector, on which it aborts (`proxysort_empty_aborts`). -/
theorem proxysort_partial {β : Type} (srt : (Nat → Nat → Bool) → List Nat → List Nat) (comp : β → β → Bool) (x : List β)
    (hp : (srt (viaProxy comp x) (List.range x.length)).Perm (List.range x.length))
    (hso : (srt (viaProxy comp x) (List.range x.length)).Pairwise fun a b => viaProxy comp x b a = false) (hx : x ≠ []) :
    ∃ p, proxysort srt comp x = .ok p ∧ p.Perm (List.range x.length) ∧
      ∃ y, p.mapM (fun i => vget x i) = .ok y ∧ y.Perm x ∧ y.Pairwise (fun u v => comp v u = false) := by
  refine ⟨srt (viaProxy comp x) (List.range x.length), ?_, hp, ?_⟩
  · have : List.range x.length ≠ [] := by simpa using hx
    have hc : decide (List.range x.length ≠ []) = true := decide_eq_true this
    show (do check (decide (List.range x.length ≠ [])); _ : Res (List Nat)) = _
    rw [hc]
    rfl
  · generalize srt (viaProxy comp x) (List.range x.length) = p at hp hso
    have hlt : ∀ i ∈ p, i < x.length := fun i hi => by simpa using hp.mem_iff.1 hi
    cases x with
    | nil => exact absurd rfl hx
    | cons d xs =>
    generalize hX : d :: xs = X at *
    refine ⟨p.map fun i => X.getD i d, ?_, ?_, ?_⟩
    · apply mapM_ok_of_forall
      intro i hi
      rw [vget_of_lt (hlt i hi), List.getD_eq_getElem?_getD, List.getElem?_eq_getElem (hlt i hi)]; rfl
    · have h1 := hp.map fun i => X.getD i d
      refine h1.trans ?_
      apply List.Perm.of_eq
      apply List.ext_getElem (by simp)
      intro i h1 h2
      simp [List.getElem?_eq_getElem h2]
    · rw [List.pairwise_map]
      refine hso.imp_of_mem ?_
      intro a b ha hb h
      have ha' := hlt a ha
      have hb' := hlt b hb
      simpa [viaProxy, List.getElem?_eq_getElem ha', List.getElem?_eq_getElem hb'] using h

/-- C49, negated for the empty vector: the assertion `perm.begin() != perm.end()` fails. -/
theorem proxysort_empty_aborts {β : Type} (srt : (Nat → Nat → Bool) → List Nat → List Nat) (comp : β → β → Bool) :
    proxysort srt comp ([] : List β) = .error .assertFailed := rfl

example : let srt : (Nat → Nat → Bool) → List Nat → List Nat := fun lt l => l.mergeSort fun a b => !lt b a
    let lt := viaProxy (fun a b : Nat => decide (a < b)) [3, 1, 2]
    (srt lt (List.range 3)).Perm (List.range 3) ∧ ((srt lt (List.range 3)).Pairwise fun a b => lt b a = false) ∧
      proxysort srt (fun a b : Nat => decide (a < b)) [3, 1, 2] = .ok [1, 2, 0] := by
  refine ⟨List.mergeSort_perm _ _, ?_, ?_⟩
  · simp [List.mergeSort, viaProxy, List.range_succ, List.MergeSort.Internal.splitInTwo]
  · simp [List.mergeSort, proxysort, List.range_succ, List.MergeSort.Internal.splitInTwo, check]

end NW.Util
