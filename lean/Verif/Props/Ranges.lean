import Verif.Model.Ranges
import Verif.Props.Util
import Verif.Props.BitVector
import Verif.Props.CsrBuild

/-! # C50–C53: splittable ranges -/

namespace NW.Ranges

/-! ## C51: block ranges -/

/-- The elements at the positions of a block. -/
def slice {β : Type} (xs : List β) (r : Block) : List β := (xs.drop r.b).take (r.e - r.b)

theorem slice_append {β : Type} (xs : List β) (b m e : Nat) (h1 : b ≤ m) (h2 : m ≤ e) :
    slice xs ⟨b, m⟩ ++ slice xs ⟨m, e⟩ = slice xs ⟨b, e⟩ := by
  unfold slice
  simp only
  have h3 : e - b = (m - b) + (e - m) := by omega
  rw [h3, List.take_add, List.drop_drop, show b + (m - b) = m by omega]

/-- What a split does to a block: two consecutive blocks, of which `splittable` returns the first as the new one and `outerRange` the second. -/
theorem leaves_inside (s : Splitter Block)
    (hs : ∀ r : Block, r.b ≤ r.e → ∃ m, r.b ≤ m ∧ m ≤ r.e ∧
      (s.split r = (⟨r.b, m⟩, ⟨m, r.e⟩) ∨ s.split r = (⟨m, r.e⟩, ⟨r.b, m⟩)))
    (t : Tree) : ∀ (r : Block), r.b ≤ r.e → ∀ l ∈ s.leaves t r, r.b ≤ l.b ∧ l.b ≤ l.e ∧ l.e ≤ r.e := by
  induction t with
  | leaf => intro r hr l hl; simp [Splitter.leaves] at hl; subst hl; omega
  | node a b iha ihb =>
    intro r hr l hl
    obtain ⟨m, h1, h2, h3⟩ := hs r hr
    simp only [Splitter.leaves, List.mem_append] at hl
    rcases h3 with h3 | h3 <;> rw [h3] at hl <;> rcases hl with hl | hl
    · have := iha ⟨r.b, m⟩ h1 l hl; simp only at this; omega
    · have := ihb ⟨m, r.e⟩ h2 l hl; simp only at this; omega
    · have := iha ⟨m, r.e⟩ h2 l hl; simp only at this; omega
    · have := ihb ⟨r.b, m⟩ h1 l hl; simp only at this; omega

theorem leaves_additive {γ : Type} (s : Splitter Block)
    (hs : ∀ r : Block, r.b ≤ r.e → ∃ m, r.b ≤ m ∧ m ≤ r.e ∧
      (s.split r = (⟨r.b, m⟩, ⟨m, r.e⟩) ∨ s.split r = (⟨m, r.e⟩, ⟨r.b, m⟩)))
    (f : Block → List γ) (hf : ∀ b m e, b ≤ m → m ≤ e → f ⟨b, m⟩ ++ f ⟨m, e⟩ = f ⟨b, e⟩)
    (t : Tree) : ∀ (r : Block), r.b ≤ r.e → ((s.leaves t r).flatMap f).Perm (f r) := by
  induction t with
  | leaf => intro r hr; simp [Splitter.leaves]
  | node a b iha ihb =>
    intro r hr
    obtain ⟨m, h1, h2, h3⟩ := hs r hr
    simp only [Splitter.leaves, List.flatMap_append]
    rcases h3 with h3 | h3 <;> rw [h3]
    · exact ((iha ⟨r.b, m⟩ h1).append (ihb ⟨m, r.e⟩ h2)).trans (by rw [hf _ _ _ h1 h2])
    · exact ((iha ⟨m, r.e⟩ h2).append (ihb ⟨r.b, m⟩ h1)).trans
        (List.perm_append_comm.trans (by rw [hf _ _ _ h1 h2]))

theorem splittable_halves (cutoff : Nat) (r : Block) (hr : r.b ≤ r.e) : ∃ m, r.b ≤ m ∧ m ≤ r.e ∧
    ((splittable cutoff).split r = (⟨r.b, m⟩, ⟨m, r.e⟩) ∨ (splittable cutoff).split r = (⟨m, r.e⟩, ⟨r.b, m⟩)) :=
  ⟨r.b + (r.e - r.b) / 2, by omega, by omega, .inl rfl⟩

theorem outerRange_halves (r : Block) (hr : r.b ≤ r.e) : ∃ m, r.b ≤ m ∧ m ≤ r.e ∧
    (outerRange.split r = (⟨r.b, m⟩, ⟨m, r.e⟩) ∨ outerRange.split r = (⟨m, r.e⟩, ⟨r.b, m⟩)) :=
  ⟨r.b + (r.e - r.b) / 2, by omega, by omega, .inr rfl⟩

/-- Counting up from `b` to `e`. -/
theorem count_visits {β : Type} (it : Iter Nat β) (e : Nat) (f : Nat → β)
    (h1 : ∀ i, it.atEnd i = .ok (decide (i = e))) (h3 : ∀ i, it.next i = .ok (i + 1))
    (b : Nat) (hbe : b ≤ e) (h2 : ∀ i, b ≤ i → i < e → it.deref i = .ok (f i)) :
    it.Visits b (.ok ((List.range' b (e - b)).map f)) := by
  refine Iter.visits_of it (fun i xs => b ≤ i ∧ i ≤ e ∧ xs = (List.range' i (e - i)).map f) ?_ ?_ ⟨Nat.le_refl _, hbe, rfl⟩
  · rintro i ⟨hi1, hi, hxs⟩
    have : e - i = 0 := by
      have := congrArg List.length hxs; simpa using this.symm
    rw [h1]; simp; omega
  · rintro i x xs ⟨hi1, hi, hxs⟩
    have hlt : i < e := by
      have := congrArg List.length hxs; simp at this; omega
    rw [show e - i = (e - (i + 1)) + 1 by omega, List.range'_succ, List.map_cons] at hxs
    injection hxs with hx hxs
    subst hx
    refine ⟨by rw [h1]; simp; omega, h2 i hi1 hlt, i + 1, h3 i, by omega, by omega, hxs⟩

theorem slice_eq_map {β : Type} [Inhabited β] (xs : List β) (b e : Nat) (he : e ≤ xs.length) :
    slice xs ⟨b, e⟩ = (List.range' b (e - b)).map (fun i => xs.getD i default) := by
  unfold slice
  simp only
  apply List.ext_getElem?
  intro k
  rw [List.getElem?_take, List.getElem?_map]
  by_cases c : k < e - b
  · rw [if_pos c, List.getElem?_drop, List.getElem?_range' (by omega), List.getElem?_eq_getElem (by omega)]
    simp only [Option.map_some, Nat.one_mul, List.getD_eq_getElem?_getD]
    rw [List.getElem?_eq_getElem (by omega)]; rfl
  · rw [if_neg c, List.getElem?_eq_none (by simp; omega)]; rfl

theorem splittable_visits {β : Type} (xs : List β) (b e : Nat) (hbe : b ≤ e) (he : e ≤ xs.length) :
    (splittableIter xs e).Visits b (.ok (slice xs ⟨b, e⟩)) := by
  by_cases hx : xs = []
  · subst hx
    have he0 : e = 0 := by simpa using he
    subst he0
    have hb0 : b = 0 := by omega
    subst hb0
    exact Loop.done (by simp [Iter.body, splittableIter, slice])
  · obtain ⟨x0, tl, rfl⟩ := List.exists_cons_of_ne_nil hx
    have : Inhabited β := ⟨x0⟩
    rw [slice_eq_map _ b e he]
    refine count_visits _ e _ (fun _ => rfl) (fun _ => rfl) b hbe ?_
    intro i _ hi
    show vget (x0 :: tl) i = _
    rw [vget_of_lt (by omega), List.getD_eq_getElem?_getD, List.getElem?_eq_getElem (by omega)]; rfl

/-- C51. `splittable_range_adaptor`: for every way of splitting `[begin, end)`, iterating the parts is in bounds, and together they visit
every element exactly once. -/
theorem splittable_range_splits {β : Type} (cutoff : Nat) (xs : List β) (b e : Nat) (hbe : b ≤ e) (he : e ≤ xs.length) (t : Tree) :
    (∀ l ∈ (splittable cutoff).leaves t (mkSplittable b e), (splittableIter xs l.e).Visits l.b (.ok (slice xs l))) ∧
      (((splittable cutoff).leaves t (mkSplittable b e)).flatMap (slice xs)).Perm (slice xs ⟨b, e⟩) := by
  have hmk : mkSplittable b e = ⟨b, e⟩ := by unfold mkSplittable; rw [if_neg (by omega)]
  rw [hmk]
  refine ⟨?_, leaves_additive _ (splittable_halves cutoff) (slice xs) (slice_append xs) t ⟨b, e⟩ hbe⟩
  intro l hl
  obtain ⟨h1, h2, h3⟩ := leaves_inside _ (splittable_halves cutoff) t ⟨b, e⟩ hbe l hl
  exact splittable_visits xs l.b l.e h2 (by simp only at h3; omega)

/-- A range whose begin is past its end is treated as empty. -/
theorem splittable_range_reversed {β : Type} (xs : List β) (b e : Nat) (h : e < b) :
    (splittableIter xs (mkSplittable b e).e).Visits (mkSplittable b e).b (.ok []) := by
  apply Loop.done
  simp [Iter.body, splittableIter, mkSplittable, h]

/-- C51. The bit vector's range of non-zero entries: for every way of splitting it, the parts together visit every member exactly once. -/
theorem non_zero_range_splits (B cutoff : Nat) (hB : 0 < B) (v : List Nat) (hv : BitVec'.Fits B v) (t : Tree) :
    (∀ l ∈ (splittable cutoff).leaves t ⟨0, v.length⟩,
      (BitVec'.rangeIter B v l.e).Visits (BitVec'.rangeBegin v l.b) (.ok (BitVec'.membersIn B v l.b l.e))) ∧
      (((splittable cutoff).leaves t ⟨0, v.length⟩).flatMap fun l => BitVec'.membersIn B v l.b l.e).Perm
        ((List.range (v.length * B)).filter (BitVec'.bitAt B v)) := by
  constructor
  · intro l hl
    obtain ⟨h1, h2, h3⟩ := leaves_inside _ (splittable_halves cutoff) t ⟨0, v.length⟩ (Nat.zero_le _) l hl
    exact BitVec'.non_zeros_iteration B hB v hv l.b l.e h2 h3
  · have := leaves_additive _ (splittable_halves cutoff) (fun l => BitVec'.membersIn B v l.b l.e)
      (fun b m e => BitVec'.membersIn_append B v b m e) t ⟨0, v.length⟩ (Nat.zero_le _)
    simpa [BitVec'.membersIn, List.range_eq_range'] using this

/-- C51. `plain_range`: however it is split, the parts together yield every outer position once. -/
theorem plain_range_splits (offset n : Nat) (h : offset ≤ n) (t : Tree) :
    (∀ l ∈ outerRange.leaves t ⟨offset, n⟩, (plainIter l.e).Visits l.b (.ok (List.range' l.b (l.e - l.b)))) ∧
      ((outerRange.leaves t ⟨offset, n⟩).flatMap fun l => List.range' l.b (l.e - l.b)).Perm (List.range' offset (n - offset)) := by
  constructor
  · intro l hl
    obtain ⟨h1, h2, h3⟩ := leaves_inside _ outerRange_halves t ⟨offset, n⟩ h l hl
    simpa using count_visits (plainIter l.e) l.e id (fun _ => rfl) (fun _ => rfl) l.b h2 (fun _ _ _ => rfl)
  · refine leaves_additive _ outerRange_halves (fun l => List.range' l.b (l.e - l.b)) ?_ t ⟨offset, n⟩ h
    intro b m e h1 h2
    have := List.range'_append (s := b) (m := m - b) (n := e - m) (step := 1)
    rw [Nat.one_mul, show b + (m - b) = m by omega, show m - b + (e - m) = e - b by omega] at this
    exact this

/-- C51. `neighbor_range`: however it is split, the parts together yield every outer position once, with its neighbourhood. -/
theorem neighbor_range_splits {β : Type} (row : Nat → Res (List β)) (rows : Nat → List β) (offset n : Nat) (h : offset ≤ n)
    (hrow : ∀ u, offset ≤ u → u < n → row u = .ok (rows u)) (t : Tree) :
    (∀ l ∈ outerRange.leaves t ⟨offset, n⟩, (neighborIter row l.e).Visits l.b
        (.ok ((List.range' l.b (l.e - l.b)).map fun u => (u, rows u)))) ∧
      ((outerRange.leaves t ⟨offset, n⟩).flatMap fun l => (List.range' l.b (l.e - l.b)).map fun u => (u, rows u)).Perm
        ((List.range' offset (n - offset)).map fun u => (u, rows u)) := by
  constructor
  · intro l hl
    obtain ⟨h1, h2, h3⟩ := leaves_inside _ outerRange_halves t ⟨offset, n⟩ h l hl
    refine count_visits (neighborIter row l.e) l.e _ (fun _ => rfl) (fun _ => rfl) l.b h2 ?_
    intro i hi1 hi2
    simp only at h1 h3
    simp [neighborIter, hrow i (by omega) (by omega)]
  · refine leaves_additive _ outerRange_halves (fun l => (List.range' l.b (l.e - l.b)).map fun u => (u, rows u)) ?_ t ⟨offset, n⟩ h
    intro b m e h1 h2
    have := List.range'_append (s := b) (m := m - b) (n := e - m) (step := 1)
    rw [Nat.one_mul, show b + (m - b) = m by omega, show m - b + (e - m) = e - b by omega] at this
    simp only
    rw [← List.map_append, this]

/-- `plain_degree_range` pairs every vertex with the length of its neighbourhood. -/
theorem plain_degree_range_visits {β : Type} (row : Nat → Res (List β)) (rows : Nat → List β) (n : Nat)
    (hrow : ∀ u, u < n → row u = .ok (rows u)) :
    (degreeIter row n).Visits 0 (.ok ((List.range n).map fun u => (u, (rows u).length))) := by
  have := count_visits (degreeIter row n) n (fun u => (u, (rows u).length)) (fun _ => rfl) (fun _ => rfl) 0 (Nat.zero_le _)
    (fun i _ hi => by simp [degreeIter, hrow i hi])
  simpa [List.range_eq_range'] using this

/-- C51. Splitting only divisible ranges stops: a block of `s` positions is split at most `s - 1` times. -/
theorem splittable_terminates (cutoff : Nat) (hc : 1 ≤ cutoff) (t : Tree) :
    ∀ r : Block, (splittable cutoff).Legal t r → t.splits ≤ r.e - r.b - 1 := by
  induction t with
  | leaf => intro r _; simp [Tree.splits]
  | node a b iha ihb =>
    intro r hl
    obtain ⟨h1, h2, h3⟩ := hl
    have h1' : r.e - r.b > cutoff := by simpa [splittable] using h1
    have k1 := iha _ h2
    have k2 := ihb _ h3
    simp only [splittable] at k1 k2
    simp only [Tree.splits]
    omega

theorem outerRange_terminates (t : Tree) : ∀ r : Block, outerRange.Legal t r → t.splits ≤ r.e - r.b - 1 := by
  induction t with
  | leaf => intro r _; simp [Tree.splits]
  | node a b iha ihb =>
    intro r hl
    obtain ⟨h1, h2, h3⟩ := hl
    have h1' : r.e - r.b > 16 := by simpa [outerRange] using h1
    have k1 := iha _ h2
    have k2 := ihb _ h3
    simp only [outerRange] at k1 k2
    simp only [Tree.splits]
    omega

/-- With a cutoff of zero every non-empty range stays divisible, and splitting need not stop. -/
theorem splittable_cutoff_zero_diverges (n : Nat) : ∀ r : Block, r.b < r.e →
    ∃ t : Tree, (splittable 0).Legal t r ∧ t.splits = n := by
  induction n with
  | zero => intro r _; exact ⟨.leaf, trivial, rfl⟩
  | succ n ih =>
    intro r hr
    obtain ⟨t, h1, h2⟩ := ih ⟨r.b + (r.e - r.b) / 2, r.e⟩ (by simp only; omega)
    refine ⟨.node .leaf t, ⟨by simp [splittable]; omega, trivial, h1⟩, by simp [Tree.splits, h2]⟩

/-- Non-vacuity: a split tree of 40 positions that splits three times, legally. -/
example : outerRange.leaves (.node (.node .leaf .leaf) (.node .leaf .leaf)) ⟨0, 40⟩ = [⟨30, 40⟩, ⟨20, 30⟩, ⟨10, 20⟩, ⟨0, 10⟩] ∧
    outerRange.Legal (.node (.node .leaf .leaf) (.node .leaf .leaf)) ⟨0, 40⟩ := by
  refine ⟨by decide, ?_⟩
  simp [Splitter.Legal, outerRange]

/-! ## C50: cyclic ranges -/

/-- The number of positions of a cycle. -/
def cycleCount (n c s : Nat) : Nat := n / s + if c < n % s then 1 else 0

theorem cycle_stop (n c s : Nat) (hc : c < s) :
    (Cyclic.mk n k c s).stop = ((c + cycleCount n c s * s : Nat) : Int) := by
  unfold Cyclic.stop
  simp only
  have hs : 0 < s := by omega
  have hdm := Nat.div_add_mod n s
  have hb := Nat.mod_lt n hs
  unfold cycleCount
  generalize n / s = a at hdm
  generalize n % s = b at hdm hb
  subst hdm
  rcases Nat.lt_or_ge (s * a + b) c with hlt | hge
  · -- a cycle that starts past the end
    have ha : a = 0 := by
      rcases Nat.eq_zero_or_pos a with h | h
      · exact h
      · have := Nat.mul_le_mul_left s h; omega
    subst ha
    simp only [Nat.mul_zero, Nat.zero_add] at hlt ⊢
    rw [if_neg (by omega)]
    obtain ⟨d, rfl⟩ : ∃ d, c = b + d := ⟨c - b, by omega⟩
    have h1 : ((b : Int) - ((b + d : Nat) : Int)) = -(d : Int) := by omega
    rw [h1, Int.neg_tmod, show (d : Int).tmod (s : Int) = ((d % s : Nat) : Int) from rfl, Nat.mod_eq_of_lt (by omega : d < s)]
    rw [show ((s : Int) - -(d : Int)) = ((s + d : Nat) : Int) by omega,
      show ((s + d : Nat) : Int).tmod (s : Int) = (((s + d) % s : Nat) : Int) from rfl, Nat.add_mod_left, Nat.mod_eq_of_lt (by omega : d < s)]
    omega
  · obtain ⟨d, hd⟩ : ∃ d, s * a + b = c + d := ⟨s * a + b - c, by omega⟩
    have h1 : (((s * a + b : Nat) : Int) - (c : Int)) = (d : Int) := by omega
    rw [h1, show (d : Int).tmod (s : Int) = ((d % s : Nat) : Int) from rfl]
    have hm := Nat.mod_lt d hs
    rw [show ((s : Int) - ((d % s : Nat) : Int)) = ((s - d % s : Nat) : Int) by omega,
      show ((s - d % s : Nat) : Int).tmod (s : Int) = (((s - d % s) % s : Nat) : Int) from rfl]
    rw [← Int.natCast_add, Int.natCast_inj]
    rcases Nat.lt_trichotomy c b with h | h | h
    · have : d = (b - c) + s * a := by omega
      rw [if_pos h, this, Nat.add_mul_mod_self_left, Nat.mod_eq_of_lt (by omega : b - c < s), Nat.mod_eq_of_lt (by omega : s - (b - c) < s),
        Nat.add_mul, Nat.one_mul, Nat.mul_comm s a]
      omega
    · have : d = 0 + s * a := by omega
      rw [if_neg (by omega), this, Nat.add_mul_mod_self_left, Nat.zero_mod, Nat.sub_zero, Nat.mod_self, Nat.add_zero, Nat.mul_comm s a,
        Nat.add_zero]
      omega
    · obtain ⟨a', rfl⟩ : ∃ a', a = a' + 1 := by
        cases a with
        | zero => simp at hge; omega
        | succ a' => exact ⟨a', rfl⟩
      rw [Nat.mul_add, Nat.mul_one] at hd
      have : d = (s + b - c) + s * a' := by omega
      rw [if_neg (by omega), this, Nat.add_mul_mod_self_left, Nat.mod_eq_of_lt (by omega : s + b - c < s),
        Nat.mod_eq_of_lt (by omega : s - (s + b - c) < s), Nat.add_zero, Nat.mul_comm s]
      omega

theorem cycle_in_range {n c s k : Nat} (hs : 0 < s) (hk : k < cycleCount n c s) (hc : c < s) : c + k * s < n := by
  unfold cycleCount at hk
  have hdm := Nat.div_add_mod n s
  rw [Nat.mul_comm] at hdm
  have : k * s ≤ n / s * s ∧ (k * s = n / s * s → c < n % s) ∧ (k < n / s → k * s + s ≤ n / s * s) := by
    split at hk
    · rename_i h
      refine ⟨Nat.mul_le_mul_right _ (by omega), fun _ => h, fun h => ?_⟩
      have := Nat.mul_le_mul_right s h
      rwa [Nat.succ_mul] at this
    · have h := hk
      simp only [Nat.add_zero] at h
      have := Nat.mul_le_mul_right s h
      rw [Nat.succ_mul] at this
      exact ⟨by omega, fun e => by omega, fun _ => this⟩
  have hb := Nat.mod_lt n hs
  obtain ⟨h1, h2, h3⟩ := this
  rcases Nat.lt_or_ge k (n / s) with h | h
  · have := h3 h; omega
  · have : k * s = n / s * s := Nat.le_antisymm h1 (Nat.mul_le_mul_right _ h)
    have := h2 this
    omega

theorem cycle_covers {n c s j : Nat} (hj : j < n) (hjc : j % s = c) : j / s < cycleCount n c s := by
  unfold cycleCount
  have h1 := Nat.div_add_mod n s
  have h2 := Nat.div_add_mod j s
  have hle : j / s ≤ n / s := Nat.div_le_div_right (by omega)
  rcases Nat.lt_or_ge (j / s) (n / s) with h | h
  · exact Nat.lt_of_lt_of_le h (Nat.le_add_right _ _)
  · have : j / s = n / s := by omega
    rw [this] at h2 ⊢
    rw [if_pos (by omega)]
    omega

/-- The positions a cyclic sub-range stands for. -/
def cyclePositions (n c s : Nat) : List Nat := (List.range n).filter fun i => decide (i % s = c)

theorem cyclePositions_eq {n c s : Nat} (hc : c < s) :
    cyclePositions n c s = (List.range (cycleCount n c s)).map fun k => c + k * s := by
  have hs : 0 < s := by omega
  have key : (cyclePositions n c s).Perm ((List.range (cycleCount n c s)).map fun k => c + k * s) := by
    rw [List.perm_ext_iff_of_nodup]
    · intro j
      unfold cyclePositions
      simp only [List.mem_filter, List.mem_range, decide_eq_true_eq, List.mem_map]
      constructor
      · rintro ⟨h1, h2⟩
        exact ⟨j / s, cycle_covers h1 h2, by have := Nat.div_add_mod j s; rw [Nat.mul_comm] at this; omega⟩
      · rintro ⟨k, h1, rfl⟩
        exact ⟨cycle_in_range hs h1 hc, by rw [Nat.add_mul_mod_self_right, Nat.mod_eq_of_lt hc]⟩
    · exact List.nodup_range.filter _
    · refine List.Pairwise.map _ ?_ (List.pairwise_lt_range (n := cycleCount n c s))
      intro a b hab h
      have := Nat.mul_lt_mul_of_pos_right hab hs
      omega
  refine List.Perm.eq_of_pairwise ?_ ?_ ?_ key (le := (· < ·))
  · intro a b _ _ h1 h2; omega
  · exact List.pairwise_lt_range.sublist List.filter_sublist
  · refine List.Pairwise.map _ ?_ (List.pairwise_lt_range (n := cycleCount n c s))
    intro a b hab
    have := Nat.mul_lt_mul_of_pos_right hab hs
    omega

/-- A cyclic sub-range as it occurs: over `n` elements, offset below the stride. -/
structure Proper (n : Nat) (r : Cyclic) : Prop where
  len : r.n = n
  cycle0 : 0 ≤ r.cycle
  cycle : r.cycle < r.stride

theorem proper_split {n : Nat} {r : Cyclic} (hr : Proper n r) : Proper n (cyclic.split r).1 ∧ Proper n (cyclic.split r).2 := by
  obtain ⟨h1, h2, h3⟩ := hr
  exact ⟨⟨h1, by simp only [cyclic]; omega, by simp only [cyclic]; omega⟩, ⟨h1, by simp only [cyclic]; omega, by simp only [cyclic]; omega⟩⟩

theorem cyclic_leaves_proper {n : Nat} (t : Tree) : ∀ r : Cyclic, Proper n r → ∀ l ∈ cyclic.leaves t r, Proper n l := by
  induction t with
  | leaf => intro r hr l hl; simp [Splitter.leaves] at hl; subst hl; exact hr
  | node a b iha ihb =>
    intro r hr l hl
    simp only [Splitter.leaves, List.mem_append] at hl
    have hab := proper_split hr
    rcases hl with hl | hl
    · exact iha _ hab.1 l hl
    · exact ihb _ hab.2 l hl

/-- The positions of a sub-range. -/
def Cyclic.positions (r : Cyclic) : List Nat := cyclePositions r.n.toNat r.cycle.toNat r.stride.toNat

theorem filterMap_range'_length {β : Type} (f : Nat → Option β) (l : List Nat) (h : ∀ i ∈ l, ∃ x, f i = some x) :
    (l.filterMap f).length = l.length := by
  induction l with
  | nil => rfl
  | cons a l ih =>
    obtain ⟨x, hx⟩ := h a (by simp)
    rw [List.filterMap_cons_some hx]
    simp [ih (fun i hi => h i (by simp [hi]))]

theorem cyclic_visits_positions {β : Type} {n : Nat} (it : Iter Int β) (f : Nat → Option β) {r : Cyclic} (hr : Proper n r)
    (h1 : ∀ i, it.atEnd i = .ok (decide (i = r.stop))) (h3 : ∀ i, it.next i = .ok (i + r.stride))
    (h2 : ∀ i : Nat, i < n → ∃ x, f i = some x ∧ it.deref i = .ok x) :
    it.Visits r.start (.ok (r.positions.filterMap f)) ∧ r.size = (r.positions.filterMap f).length := by
  obtain ⟨rn, cut, cy, st⟩ := r
  obtain ⟨hn, hc0, hc⟩ := hr
  simp only at hn hc0 hc
  subst hn
  obtain ⟨c, rfl⟩ := Int.eq_ofNat_of_zero_le hc0
  obtain ⟨s, rfl⟩ := Int.eq_ofNat_of_zero_le (show 0 ≤ st by omega)
  have hcs : c < s := by omega
  have hs : 0 < s := by omega
  have hpos : (Cyclic.mk n cut c s).positions = (List.range (cycleCount n c s)).map fun k => c + k * s := by
    unfold Cyclic.positions
    simp only [Int.toNat_natCast]
    exact cyclePositions_eq hcs
  rw [hpos]
  constructor
  · refine Iter.visits_of it (fun i xs => ∃ k, k ≤ cycleCount n c s ∧ i = ((c + k * s : Nat) : Int) ∧
      xs = ((List.range' k (cycleCount n c s - k)).map fun k => c + k * s).filterMap f) ?_ ?_ ⟨0, by omega, by simp [Cyclic.start], by
        rw [List.range_eq_range', Nat.sub_zero]⟩
    · rintro i ⟨k, hk, rfl, hxs⟩
      have : cycleCount n c s - k = 0 := by
        have := congrArg List.length hxs
        rw [filterMap_range'_length] at this
        · simpa using this.symm
        · intro i hi
          simp only [List.mem_map, List.mem_range'_1] at hi
          obtain ⟨j, hj, rfl⟩ := hi
          obtain ⟨x, hx, _⟩ := h2 _ (cycle_in_range hs (by omega : j < cycleCount n c s) hcs)
          exact ⟨x, hx⟩
      have hk' : k = cycleCount n c s := by omega
      rw [h1, cycle_stop n c s hcs, hk']; simp
    · rintro i x xs ⟨k, hk, rfl, hxs⟩
      have hlt : k < cycleCount n c s := by
        rcases Nat.lt_or_ge k (cycleCount n c s) with h | h
        · exact h
        · rw [show cycleCount n c s - k = 0 by omega] at hxs
          simp at hxs
      obtain ⟨y, hy, hd⟩ := h2 _ (cycle_in_range hs hlt hcs)
      rw [show cycleCount n c s - k = (cycleCount n c s - (k + 1)) + 1 by omega, List.range'_succ, List.map_cons,
        List.filterMap_cons_some hy] at hxs
      injection hxs with hx hxs
      subst hx
      have hmul := Nat.mul_lt_mul_of_pos_right hlt hs
      refine ⟨?_, hd, _, h3 _, k + 1, by omega, ?_, hxs⟩
      · rw [h1, cycle_stop n c s hcs]
        have : ((c + k * s : Nat) : Int) ≠ ((c + cycleCount n c s * s : Nat) : Int) := by
          rw [Ne, Int.natCast_inj]; omega
        simp only [decide_eq_false this]
      · simp only
        rw [← Int.natCast_add, Nat.add_mul, Nat.one_mul]
        congr 1; omega
  · rw [filterMap_range'_length]
    · unfold Cyclic.size
      simp only [List.length_map, List.length_range]
      rw [show (n : Int).tdiv (s : Int) = ((n / s : Nat) : Int) from rfl, show (n : Int).tmod (s : Int) = ((n % s : Nat) : Int) from rfl]
      unfold cycleCount
      by_cases h : c < n % s
      · rw [if_pos (by omega), if_pos h]; omega
      · rw [if_neg (by omega), if_neg h]; omega
    · intro i hi
      simp only [List.mem_map, List.mem_range] at hi
      obtain ⟨j, hj, rfl⟩ := hi
      obtain ⟨x, hx, _⟩ := h2 _ (cycle_in_range hs hj hcs)
      exact ⟨x, hx⟩

theorem cyclic_positions_split {n : Nat} {r : Cyclic} (hr : Proper n r) :
    ((cyclic.split r).1.positions ++ (cyclic.split r).2.positions).Perm r.positions := by
  obtain ⟨rn, cut, cy, st⟩ := r
  obtain ⟨hn, hc0, hc⟩ := hr
  simp only at hn hc0 hc
  subst hn
  obtain ⟨c, rfl⟩ := Int.eq_ofNat_of_zero_le hc0
  obtain ⟨s, rfl⟩ := Int.eq_ofNat_of_zero_le (show 0 ≤ st by omega)
  have hcs : c < s := by omega
  have e1 : (cyclic.split ⟨n, cut, c, s⟩).1.positions = cyclePositions n (c + s) (s * 2) := by
    unfold Cyclic.positions
    congr 1
  have e2 : (cyclic.split ⟨n, cut, c, s⟩).2.positions = cyclePositions n c (s * 2) := by
    unfold Cyclic.positions
    congr 1
  have e3 : (Cyclic.mk n cut c s).positions = cyclePositions n c s := rfl
  rw [e1, e2, e3]
  unfold cyclePositions
  have hmod : ∀ i, i % s = c ↔ i % (s * 2) = c + s ∨ i % (s * 2) = c := by
    intro i
    have h1 : i % (s * 2) % s = i % s := Nat.mod_mul_right_mod i s 2
    have h2 : i % (s * 2) < s * 2 := Nat.mod_lt _ (by omega)
    generalize i % (s * 2) = x at h1 h2
    rw [← h1]
    rcases Nat.lt_or_ge x s with h | h
    · rw [Nat.mod_eq_of_lt h]; omega
    · have : x = (x - s) + s := by omega
      rw [this, Nat.add_mod_right, Nat.mod_eq_of_lt (by omega)]; omega
  rw [List.perm_ext_iff_of_nodup]
  · intro j
    simp only [List.mem_append, List.mem_filter, List.mem_range, decide_eq_true_eq, hmod j]
    constructor
    · rintro (⟨a, b⟩ | ⟨a, b⟩)
      · exact ⟨a, .inl b⟩
      · exact ⟨a, .inr b⟩
    · rintro ⟨a, b | b⟩
      · exact .inl ⟨a, b⟩
      · exact .inr ⟨a, b⟩
  · rw [List.nodup_append]
    refine ⟨List.nodup_range.filter _, List.nodup_range.filter _, ?_⟩
    intro a ha b hb hab
    subst hab
    simp only [List.mem_filter, decide_eq_true_eq] at ha hb
    omega
  · exact List.nodup_range.filter _

theorem cyclic_leaves_positions {n : Nat} (t : Tree) : ∀ r : Cyclic, Proper n r →
    ((cyclic.leaves t r).flatMap Cyclic.positions).Perm r.positions := by
  induction t with
  | leaf => intro r _; simp [Splitter.leaves]
  | node a b iha ihb =>
    intro r hr
    simp only [Splitter.leaves, List.flatMap_append]
    obtain ⟨ha, hb⟩ := proper_split hr
    exact ((iha _ ha).append (ihb _ hb)).trans (cyclic_positions_split hr)

theorem mkCyclic_proper {n cutoff : Nat} {r : Cyclic} (hr : mkCyclic n cutoff = .ok r) :
    Proper n r ∧ r.cycle = 0 ∧ r.stride = 1 := by
  unfold mkCyclic at hr
  cases h1 : Util.ceilLog2 64 cutoff with
  | error e => rw [h1] at hr; cases hr
  | ok k =>
    rw [h1, res_bind_ok] at hr
    cases h2 : Util.pow2 64 k with
    | error e => rw [h2] at hr; cases hr
    | ok c =>
      rw [h2, res_bind_ok] at hr
      cases hr
      exact ⟨⟨rfl, by simp, by simp⟩, rfl, rfl⟩

theorem positions_whole {n cutoff : Nat} {r : Cyclic} (hr : mkCyclic n cutoff = .ok r) : r.positions = List.range n := by
  obtain ⟨h1, h2, h3⟩ := mkCyclic_proper hr
  unfold Cyclic.positions cyclePositions
  rw [h1.len, h2, h3]
  simp [Nat.mod_one]

theorem filterMap_range_self {β : Type} (xs : List β) : (List.range xs.length).filterMap (xs[·]?) = xs := by
  apply List.ext_getElem?
  intro k
  induction xs generalizing k with
  | nil => simp
  | cons x xs ih =>
    rw [List.length_cons, List.range_succ_eq_map, List.filterMap_cons_some (b := x) (by simp), List.filterMap_map]
    cases k with
    | zero => rfl
    | succ k =>
      simp only [List.getElem?_cons_succ]
      rw [← ih k]
      congr 1

/-- C50. For every cutoff the constructor accepts and every way of splitting a cyclic range over the elements `xs`: each part is
iterated in bounds and stops at its own end, also if it starts past the end of `xs`; it visits `size()` elements; and together the parts visit
every element exactly once. -/
theorem cyclic_range_partitions {β : Type} (xs : List β) (cutoff : Nat) (r : Cyclic) (hr : mkCyclic xs.length cutoff = .ok r) (t : Tree) :
    (∀ l ∈ cyclic.leaves t r, (l.iter xs).Visits l.start (.ok (l.positions.filterMap (xs[·]?))) ∧
        l.size = (l.positions.filterMap (xs[·]?)).length) ∧
      ((cyclic.leaves t r).flatMap fun l => l.positions.filterMap (xs[·]?)).Perm xs := by
  have hproper := (mkCyclic_proper hr).1
  constructor
  · intro l hl
    have hl' := cyclic_leaves_proper t r hproper l hl
    refine cyclic_visits_positions (l.iter xs) _ hl' (fun _ => rfl) (fun _ => rfl) ?_
    intro i hi
    refine ⟨xs[i], List.getElem?_eq_getElem hi, ?_⟩
    simp [Cyclic.iter, vget_of_lt hi]
  · have := (cyclic_leaves_positions t r hproper).filterMap (xs[·]?)
    rw [List.filterMap_flatMap, positions_whole hr, filterMap_range_self] at this
    exact this

/-- C50. The same for `cyclic_neighbor_range`, which yields each element with its position. -/
theorem cyclic_neighbor_range_partitions {β : Type} (xs : List β) (cutoff : Nat) (r : Cyclic) (hr : mkCyclic xs.length cutoff = .ok r)
    (t : Tree) :
    (∀ l ∈ cyclic.leaves t r, (l.neighborIter xs).Visits l.start (.ok (l.positions.filterMap fun i => xs[i]?.map fun x => (i, x)))) ∧
      ((cyclic.leaves t r).flatMap fun l => l.positions.filterMap fun i => xs[i]?.map fun x => (i, x)).Perm
        ((List.range xs.length).filterMap fun i => xs[i]?.map fun x => (i, x)) := by
  have hproper := (mkCyclic_proper hr).1
  constructor
  · intro l hl
    have hl' := cyclic_leaves_proper t r hproper l hl
    refine (cyclic_visits_positions (l.neighborIter xs) _ hl' (fun _ => rfl) (fun _ => rfl) ?_).1
    intro i hi
    refine ⟨(i, xs[i]), by rw [List.getElem?_eq_getElem hi]; rfl, ?_⟩
    simp [Cyclic.neighborIter, vget_of_lt hi]
  · have := (cyclic_leaves_positions t r hproper).filterMap (fun i => xs[i]?.map fun x => (i, x))
    rw [List.filterMap_flatMap, positions_whole hr] at this
    exact this

/-- Splitting only divisible cyclic ranges stops: there are at most `2 * cutoff` parts, where `cutoff` is the rounded one. -/
theorem cyclic_terminates (t : Tree) : ∀ r : Cyclic, 0 < r.stride → r.stride ≤ 2 * r.cutoff → cyclic.Legal t r →
    (t.splits + 1) * r.stride ≤ 2 * r.cutoff := by
  induction t with
  | leaf => intro r _ h _; simp [Tree.splits]; omega
  | node a b iha ihb =>
    intro r h0 h hl
    obtain ⟨h1, h2, h3⟩ := hl
    have h1' : r.stride ≤ r.cutoff := by simpa [cyclic] using h1
    have k1 := iha _ (by simp only [cyclic]; omega) (by simp only [cyclic]; omega) h2
    have k2 := ihb _ (by simp only [cyclic]; omega) (by simp only [cyclic]; omega) h3
    simp only [cyclic] at k1 k2
    simp only [Tree.splits]
    rw [← Int.mul_assoc] at k1 k2
    have : ((a.splits + b.splits + 1 : Nat) + 1 : Int) * r.stride = (a.splits + 1) * r.stride + (b.splits + 1) * r.stride := by
      rw [← Int.add_mul]; congr 1; omega
    rw [this]
    omega

/-- All splits down to depth `d`. -/
def fullTree : Nat → Tree
  | 0 => .leaf
  | d + 1 => .node (fullTree d) (fullTree d)

theorem fullTree_legal (d k : Nat) : ∀ r : Cyclic, r.stride = 2 ^ k → r.cutoff = 2 ^ (k + d) → cyclic.Legal (fullTree (d + 1)) r := by
  induction d generalizing k with
  | zero =>
    intro r h1 h2
    exact ⟨by simp [cyclic, h1, h2], trivial, trivial⟩
  | succ d ih =>
    intro r h1 h2
    have hp : (2 : Int) ^ (k + (d + 1)) = 2 ^ (k + 1 + d) := by congr 1; omega
    refine ⟨?_, ih (k + 1) _ (by simp only [cyclic]; rw [h1, Int.pow_succ]) (by simp only [cyclic]; rw [h2, hp]),
      ih (k + 1) _ (by simp only [cyclic]; rw [h1, Int.pow_succ]) (by simp only [cyclic]; rw [h2, hp])⟩
    simp only [cyclic, decide_eq_true_eq, h1, h2]
    have := Nat.pow_le_pow_right (n := 2) (by omega) (show k ≤ k + (d + 1) by omega)
    exact_mod_cast this

theorem fullTree_leaves {ρ : Type} (s : Splitter ρ) (d : Nat) : ∀ r, (s.leaves (fullTree d) r).length = 2 ^ d := by
  induction d with
  | zero => intro r; rfl
  | succ d ih => intro r; simp only [fullTree, Splitter.leaves, List.length_append, ih]; omega

/-- The documentation says that a cutoff of `n` allows up to `n` cycles and that a range with cutoff 1 cannot be split.  In fact
every power of two `2 ^ d` allows `2 ^ (d + 1)` cycles. -/
theorem cyclic_splits_beyond_documented_cutoff (n d : Nat) (hd : d ≤ 62) :
    ∃ r, mkCyclic n (2 ^ d) = .ok r ∧ ∃ t, cyclic.Legal t r ∧ (cyclic.leaves t r).length = 2 * 2 ^ d := by
  obtain ⟨k, p, h1, h2, h3, h4, h5⟩ := Util.pow2_ceil_log2_partial (2 ^ d) (Nat.one_le_two_pow) (Nat.pow_le_pow_right (by omega) hd)
  have hp : p = 2 ^ d := Nat.le_antisymm (h5 d (Nat.le_refl _)) h4
  refine ⟨⟨n, p, 0, 1⟩, by unfold mkCyclic; rw [h1, res_bind_ok, h2, res_bind_ok]; rfl, fullTree (d + 1), ?_, ?_⟩
  · refine fullTree_legal d 0 _ (by simp) ?_
    simp [hp]
  · rw [fullTree_leaves]; omega

/-- Non-vacuity: five elements, cutoff 3, split into eight cycles, three of them empty and starting past the end. -/
example : ∃ r, mkCyclic 5 3 = .ok r ∧ (cyclic.leaves (fullTree 3) r).map Cyclic.positions = [[], [3], [], [1], [], [2], [4], [0]] :=
  ⟨⟨5, 4, 0, 1⟩, by decide, by decide⟩

/-! ## C52: vertex_range -/

/-- C52, the part that holds: an unsplit `vertex_range` visits every vertex once.  Missing: that splitting divides
the vertices and terminates, which is false. -/
theorem vertex_range_partial (n : Nat) : (vertexIter (mkVertexRange n).e).Visits (mkVertexRange n).b (.ok (List.range n)) := by
  have := count_visits (vertexIter n) n id (fun _ => rfl) (fun _ => rfl) 0 (Nat.zero_le _) (fun _ _ _ => rfl)
  simpa [List.range_eq_range', mkVertexRange] using this

/-- Every split of a `vertex_range` repeats all of it: with `k` splits each vertex is visited `k + 1` times. -/
theorem vertex_range_split_repeats (n : Nat) (t : Tree) :
    vertexRange.leaves t (mkVertexRange n) = List.replicate (t.splits + 1) (mkVertexRange n) := by
  induction t with
  | leaf => rfl
  | node a b iha ihb =>
    have : vertexRange.leaves (.node a b) (mkVertexRange n) = vertexRange.leaves a (mkVertexRange n) ++ vertexRange.leaves b (mkVertexRange n) := rfl
    rw [this, iha, ihb, List.replicate_append_replicate]
    congr 1
    simp [Tree.splits]; omega

/-- A `vertex_range` never stops being divisible: every tree of splits is allowed. -/
theorem vertex_range_always_divisible (n : Nat) (t : Tree) : vertexRange.Legal t (mkVertexRange n) := by
  induction t with
  | leaf => trivial
  | node a b iha ihb => exact ⟨by simp [vertexRange, mkVertexRange], iha, ihb⟩

/-! ## C53: edge_range -/

/-- The loop `for (auto&& e : edge_range)` over outer positions `[b, e)`: constructing `begin()` may already fault. -/
def EdgeRangeVisits {β : Type} (row : Nat → Res (List β)) (b e : Nat) (o : Res (List (Nat × β))) : Prop :=
  match edgeStart row b e with
  | .ok p => (edgeIter row e).Visits p o
  | .error f => o = .error f

/-- The edges of the rows `[b, e)`. -/
def rowEdges {β : Type} (rows : Nat → List β) (b e : Nat) : List (Nat × β) :=
  (List.range' b (e - b)).flatMap fun u => (rows u).map fun x => (u, x)

theorem rowEdges_succ {β : Type} (rows : Nat → List β) {b e : Nat} (h : b < e) :
    rowEdges rows b e = ((rows b).map fun x => (b, x)) ++ rowEdges rows (b + 1) e := by
  unfold rowEdges
  rw [show e - b = (e - (b + 1)) + 1 by omega, List.range'_succ, List.flatMap_cons]

theorem rowEdges_append {β : Type} (rows : Nat → List β) (b m e : Nat) (h1 : b ≤ m) (h2 : m ≤ e) :
    rowEdges rows b m ++ rowEdges rows m e = rowEdges rows b e := by
  unfold rowEdges
  have := List.range'_append (s := b) (m := m - b) (n := e - m) (step := 1)
  rw [Nat.one_mul, show b + (m - b) = m by omega, show m - b + (e - m) = e - b by omega] at this
  rw [← List.flatMap_append, this]

/-- What is left to visit from an iterator position. -/
def left {β : Type} (rows : Nat → List β) (e : Nat) (p : EdgePos β) : List (Nat × β) :=
  (p.rest.map fun x => (p.first, x)) ++ rowEdges rows (p.first + 1) e

/-- A position as iteration leaves it: at the end, or in front of an entry. -/
def Ready {β : Type} (e : Nat) (p : EdgePos β) : Prop := (p.first = e) ∨ (p.first < e ∧ p.rest ≠ [])

theorem edgeCheck_ok {β : Type} (row : Nat → Res (List β)) (rows : Nat → List β) (e : Nat) : ∀ (k : Nat) (p : EdgePos β),
    k = e - p.first → p.first < e → (∀ u, p.first < u → u < e → row u = .ok (rows u)) →
    ∃ q, edgeCheck row e p = .ok q ∧ p.first ≤ q.first ∧ q.first ≤ e ∧
      (q.first = e ∧ left rows e p = [] ∨ q.first < e ∧ q.rest ≠ [] ∧ left rows e q = left rows e p) := by
  intro k
  induction k with
  | zero => intro p h1 h2; omega
  | succ k ih =>
    intro p hk hp hrow
    unfold edgeCheck
    by_cases c : p.rest = []
    · rw [dif_pos ⟨c, hp⟩]
      by_cases d : p.first + 1 = e
      · rw [if_neg (by omega)]
        refine ⟨_, rfl, by simp, by simp only; omega, .inl ⟨d, ?_⟩⟩
        simp [left, c, rowEdges, d]
      · rw [if_pos d, hrow (p.first + 1) (by omega) (by omega), res_bind_ok]
        obtain ⟨q, h1, h2, h3, h4⟩ := ih ⟨p.first + 1, rows (p.first + 1)⟩ (by simp only; omega) (by simp only; omega)
          (fun u h1 h2 => hrow u (by simp only at h1; omega) h2)
        have hleft : left rows e ⟨p.first + 1, rows (p.first + 1)⟩ = left rows e p := by
          simp only [left, c, List.map_nil, List.nil_append]
          rw [rowEdges_succ rows (by omega : p.first + 1 < e)]
        rw [hleft] at h4
        exact ⟨q, h1, by simp only at h2; omega, h3, h4⟩
    · rw [dif_neg (by simp [c])]
      exact ⟨p, rfl, Nat.le_refl _, by omega, .inr ⟨hp, c, rfl⟩⟩

/-- C53. Iterating an `edge_range` over the rows `[b, e)` — all of them, or any part obtained by splitting — yields each entry of each row
once, in order, with its row number, whichever rows are empty, and stops. -/
theorem edge_range_enumerates {β : Type} (row : Nat → Res (List β)) (rows : Nat → List β) (b e : Nat) (hbe : b ≤ e)
    (hrow : ∀ u, b ≤ u → u < e → row u = .ok (rows u)) : EdgeRangeVisits row b e (.ok (rowEdges rows b e)) := by
  unfold EdgeRangeVisits edgeStart
  have main : ∀ q : EdgePos β, b ≤ q.first → ∀ xs, (q.first = e ∧ xs = [] ∨ q.first < e ∧ q.rest ≠ [] ∧ left rows e q = xs) →
      (edgeIter row e).Visits q (.ok xs) := by
    intro q hq xs hxs
    refine Iter.visits_of _ (fun q xs => b ≤ q.first ∧ (q.first = e ∧ xs = [] ∨ q.first < e ∧ q.rest ≠ [] ∧ left rows e q = xs)) ?_ ?_
      ⟨hq, hxs⟩
    · rintro q ⟨_, ⟨h, _⟩ | ⟨h1, h2, h3⟩⟩
      · simp [edgeIter, h]
      · exfalso
        cases hr : q.rest with
        | nil => exact h2 hr
        | cons x xs => simp [left, hr] at h3
    · rintro q x xs ⟨hb, ⟨_, h⟩ | ⟨h1, h2, h3⟩⟩
      · cases h
      · cases hr : q.rest with
        | nil => exact absurd hr h2
        | cons y ys =>
          have h3' : (q.first, y) :: left rows e ⟨q.first, ys⟩ = x :: xs := by
            rw [← h3]; simp [left, hr]
          injection h3' with hx hxs
          obtain ⟨q', k1, k2, k3, k4⟩ := edgeCheck_ok row rows e _ ⟨q.first, ys⟩ rfl h1 (fun u g1 g2 => hrow u (by simp only at g1; omega) g2)
          refine ⟨by simp [edgeIter]; omega, by simp [edgeIter, hr, hx], q', by simp [edgeIter, hr, k1], by simp only at k2; omega, ?_⟩
          rw [hxs] at k4
          exact k4
  by_cases c : b = e
  · subst c
    simp only [ne_eq, not_true_eq_false, if_false]
    exact main ⟨b, []⟩ (Nat.le_refl _) _ (.inl ⟨rfl, by simp [rowEdges]⟩)
  · rw [if_pos c, hrow b (Nat.le_refl _) (by omega), res_bind_ok]
    obtain ⟨q, h1, h2, h3, h4⟩ := edgeCheck_ok row rows e _ ⟨b, rows b⟩ rfl (show b < e by omega)
      (fun u g1 g2 => hrow u (by have g1' : b < u := g1; omega) g2)
    rw [h1]
    have hl : left rows e ⟨b, rows b⟩ = rowEdges rows b e := (rowEdges_succ rows (show b < e by omega)).symm
    rw [hl] at h4
    exact main q h2 _ h4

/-- C51 and C53 together: however an `edge_range` is split, the parts together yield every edge once. -/
theorem edge_range_splits {β : Type} (row : Nat → Res (List β)) (rows : Nat → List β) (offset n : Nat) (h : offset ≤ n)
    (hrow : ∀ u, offset ≤ u → u < n → row u = .ok (rows u)) (t : Tree) :
    (∀ l ∈ outerRange.leaves t ⟨offset, n⟩, EdgeRangeVisits row l.b l.e (.ok (rowEdges rows l.b l.e))) ∧
      ((outerRange.leaves t ⟨offset, n⟩).flatMap fun l => rowEdges rows l.b l.e).Perm (rowEdges rows offset n) := by
  constructor
  · intro l hl
    obtain ⟨h1, h2, h3⟩ := leaves_inside _ outerRange_halves t ⟨offset, n⟩ h l hl
    simp only at h1 h3
    exact edge_range_enumerates row rows l.b l.e h2 (fun u g1 g2 => hrow u (by omega) (by omega))
  · exact leaves_additive _ outerRange_halves (fun l => rowEdges rows l.b l.e) (rowEdges_append rows) t ⟨offset, n⟩ h

/-- If the last outer position has no row to read, iterating the `edge_range` ends in that fault. -/
theorem edge_range_last_row_faults {β : Type} (row : Nat → Res (List β)) (rows : Nat → List β) (f : Fault) (n : Nat)
    (hrow : ∀ u, u < n → row u = .ok (rows u)) (hbad : row n = .error f) : EdgeRangeVisits row 0 (n + 1) (.error f) := by
  -- `check()` from a position before row `n`
  have hcheck : ∀ (k : Nat) (p : EdgePos β), k = n - p.first → p.first < n →
      (edgeCheck row (n + 1) p = .error f ∧ left rows n p = [] ∨
        ∃ q, edgeCheck row (n + 1) p = .ok q ∧ q.first < n ∧ q.rest ≠ [] ∧ left rows n q = left rows n p) := by
    intro k
    induction k with
    | zero => intro p h1 h2; omega
    | succ k ih =>
      intro p hk hp
      unfold edgeCheck
      by_cases c : p.rest = []
      · rw [dif_pos ⟨c, by omega⟩, if_pos (by omega)]
        by_cases d : p.first + 1 = n
        · left
          rw [d, hbad]
          exact ⟨rfl, by simp [left, c, rowEdges, d]⟩
        · rw [hrow (p.first + 1) (by omega), res_bind_ok]
          have hleft : left rows n ⟨p.first + 1, rows (p.first + 1)⟩ = left rows n p := by
            simp only [left, c, List.map_nil, List.nil_append]
            rw [rowEdges_succ rows (by omega : p.first + 1 < n)]
          have h := ih ⟨p.first + 1, rows (p.first + 1)⟩ (by simp only; omega) (by simp only; omega)
          rw [hleft] at h; exact h
      · right
        rw [dif_neg (by simp [c])]
        exact ⟨p, rfl, hp, c, rfl⟩
  have main : ∀ q : EdgePos β, q.first < n → q.rest ≠ [] → (edgeIter row (n + 1)).Visits q (.error f) := by
    intro q hq1 hq2
    have hne : left rows n q ≠ [] := by
      cases hr : q.rest with
      | nil => exact absurd hr hq2
      | cons x xs => simp [left, hr]
    refine Iter.visits_fault_of _ f (fun q xs => q.first < n ∧ q.rest ≠ [] ∧ ∃ z, left rows n q = xs ++ [z]) ?_ ?_
      (xs := (left rows n q).dropLast) ⟨hq1, hq2, (left rows n q).getLast hne, (List.dropLast_append_getLast hne).symm⟩
    · rintro q ⟨h1, h2, z, h3⟩
      refine ⟨by simp [edgeIter]; omega, .inr ?_⟩
      cases hr : q.rest with
      | nil => exact absurd hr h2
      | cons y ys =>
        have h3' : (q.first, y) :: left rows n ⟨q.first, ys⟩ = [z] := by
          have : left rows n q = (q.first, y) :: left rows n ⟨q.first, ys⟩ := by simp [left, hr]
          rw [← this, h3]; rfl
        injection h3' with _ h4
        refine ⟨(q.first, y), by simp [edgeIter, hr], ?_⟩
        rcases hcheck _ ⟨q.first, ys⟩ rfl h1 with ⟨k1, _⟩ | ⟨q', k1, k2, k3, k4⟩
        · simp [edgeIter, hr, k1]
        · rw [h4] at k4
          cases hr' : q'.rest with
          | nil => exact absurd hr' k3
          | cons a b => simp [left, hr'] at k4
    · rintro q x xs ⟨h1, h2, z, h3⟩
      cases hr : q.rest with
      | nil => exact absurd hr h2
      | cons y ys =>
        have h3' : (q.first, y) :: left rows n ⟨q.first, ys⟩ = x :: (xs ++ [z]) := by
          have : left rows n q = (q.first, y) :: left rows n ⟨q.first, ys⟩ := by simp [left, hr]
          rw [← this, h3]; rfl
        injection h3' with hx h4
        refine ⟨by simp [edgeIter]; omega, by simp [edgeIter, hr, hx], ?_⟩
        rcases hcheck _ ⟨q.first, ys⟩ rfl h1 with ⟨_, k1⟩ | ⟨q', k1, k2, k3, k4⟩
        · rw [h4] at k1; simp at k1
        · exact ⟨q', by simp [edgeIter, hr, k1], k2, k3, z, by rw [k4, h4]⟩
  unfold EdgeRangeVisits edgeStart
  rw [if_pos (by omega)]
  cases n with
  | zero => rw [hbad]; rfl
  | succ n =>
    rw [hrow 0 (by omega), res_bind_ok]
    rcases hcheck _ ⟨0, rows 0⟩ rfl (by simp) with ⟨k1, _⟩ | ⟨q', k1, k2, k3, k4⟩
    · rw [k1]
    · rw [k1]; exact main q' k2 k3

/-- Consequence of the outer range being one too long (C08): iterating an `edge_range` over an adjacency built from an edge
list ends with a read out of bounds. -/
theorem edge_range_of_edge_list_out_of_bounds {α : Type} [Inhabited α] (o : Csr.Oracles α) (ho : o.Ok) (directed : Bool) (el : EdgeList α)
    (hw : el.Wf) (hb : Spec.EndpointsBelow el.numVertices el.contents) (idx : Nat) (hidx : idx < 2) :
    ∃ g, Csr.ofEdgeList o directed idx false el = .ok g ∧ EdgeRangeVisits g.row 0 g.N (.error .outOfBounds) := by
  obtain ⟨g, h1, h2, h3, _, h4, _, h5⟩ := Csr.fill_ok ho hw hb directed hidx (Csr.sized (el.numVertices + 1) 0)
  have hN : g.N = el.numVertices + 1 := h3
  refine ⟨g, h1, ?_⟩
  rw [hN]
  refine edge_range_last_row_faults g.row (fun u => match g.row u with | .ok r => r | .error _ => []) .outOfBounds el.numVertices ?_
    (Csr.row_oob (by omega))
  intro u hu
  obtain ⟨r, e, _⟩ := h5 u hu
  simp only [e]

/-- Non-vacuity: rows with empty ones at the front, in the middle and at the end. -/
example : EdgeRangeVisits (fun u => vget [[], [10, 11], [], [12], []] u) 0 5 (.ok [(1, 10), (1, 11), (3, 12)]) :=
  edge_range_enumerates _ (fun u => [[], [10, 11], [], [12], []].getD u []) 0 5 (by omega) (by
    intro u _ hu
    match u, hu with
    | 0, _ => rfl
    | 1, _ => rfl
    | 2, _ => rfl
    | 3, _ => rfl
    | 4, _ => rfl)

end NW.Ranges
