import Verif.Model.PageRank
import Verif.Lemmas.PageRank
import Verif.Lemmas.ListRes
import Mathlib.Tactic.NormNum
import Mathlib.Order.Basic

/-!
# C71: `page_rank`
-/

namespace NW.PageRank
open Spec

variable {α : Type}

/-- The data of a call and the solution it is compared with. -/
structure Ctx (α : Type) where
  g : Rows α
  deg : List Nat
  d : ℚ
  threshold : ℚ
  max : Nat
  p : Nat → ℚ

namespace Ctx
variable (C : Ctx α)

def n : Nat := C.g.length
def base : ℚ := (1 - C.d) / C.n
def rho : ℚ := 1 - C.base
def dg (j : Nat) : Nat := C.deg.getD j 0
/-- The exact contribution of `j`. -/
def share (j : Nat) : ℚ := C.p j / C.dg j
/-- The exact sum over a part of a row. -/
def W (l : List (Nat × α)) : ℚ := (l.map fun e => C.share e.1).sum

structure Ok : Prop where
  len : C.deg.length = C.n
  rows : InRange C.g
  used : ∀ i j, Edge C.g i j → 0 < C.dg j
  pos : 0 < C.n
  d0 : 0 ≤ C.d
  d1 : C.d < 1
  eqn : ∀ (i : Nat) row, C.g[i]? = some row → C.p i = C.base + C.d * C.W row
  lo : ∀ i, i < C.n → C.base ≤ C.p i
  hi : ∀ i, i < C.n → C.p i ≤ 1

variable {C}

theorem Ok.base_pos (h : C.Ok) : 0 < C.base := by
  have : (0 : ℚ) < C.n := by exact_mod_cast h.pos
  exact div_pos (by linarith [h.d1]) this

theorem Ok.base_le (h : C.Ok) : C.base ≤ 1 := le_trans (h.lo 0 h.pos) (h.hi 0 h.pos)

theorem Ok.rho_nonneg (h : C.Ok) : 0 ≤ C.rho := by unfold rho; linarith [h.base_le]

theorem Ok.rho_le (h : C.Ok) : C.rho ≤ 1 := by unfold rho; linarith [h.base_pos]

theorem Ok.p_pos (h : C.Ok) {i : Nat} (hi : i < C.n) : 0 < C.p i := lt_of_lt_of_le h.base_pos (h.lo i hi)

theorem Ok.share_nonneg (h : C.Ok) {i : Nat} (hi : i < C.n) : 0 ≤ C.share i := div_nonneg (h.p_pos hi).le (by positivity)

theorem Ok.vget_deg (h : C.Ok) {i : Nat} (hi : i < C.n) : vget C.deg i = .ok (C.dg i) := by
  have hl := h.len
  rw [vget_of_lt (by omega)]
  unfold dg
  rw [List.getD_eq_getElem?_getD, List.getElem?_eq_getElem (by omega)]; rfl

theorem Ok.edge (_ : C.Ok) {i : Nat} {row : List (Nat × α)} (hr : C.g[i]? = some row) {e : Nat × α} (he : e ∈ row) : Edge C.g i e.1 := by
  unfold Edge nbrs
  rw [List.getD_eq_getElem?_getD, hr]
  exact List.mem_map_of_mem he

end Ctx

variable (C : Ctx α)

/-- Every contribution that can be read is right up to the relative error `E`. -/
def ContribOk (E : ℚ) (m : Mem) : Prop := ∀ j, j < C.n → 0 < C.dg j → ∃ c, m.contrib[j]? = some (some c) ∧ |c - C.share j| ≤ E * C.share j

/-- What is known of a task during a round that began with the scores `old`, which were right up to the relative error `E`. -/
def TaskOk (E : ℚ) (old : Nat → ℚ) (m : Mem) (i : Nat) (row : List (Nat × α)) : Task α → Prop
  | .sum z rest => ∃ pre, row = pre ++ rest ∧ |z - C.W pre| ≤ E * C.W pre ∧ m.rank[i]? = some (old i)
  | .store z => |z - C.W row| ≤ E * C.W row ∧ m.rank[i]? = some (old i)
  | .share err => ∃ x, m.rank[i]? = some x ∧ err = |x - old i| ∧ |x - C.p i| ≤ C.rho * E * C.p i
  | .done err => ∃ x, m.rank[i]? = some x ∧ err = |x - old i| ∧ |x - C.p i| ≤ C.rho * E * C.p i ∧ m.contrib[i]? = some (quot x (C.dg i))

/-- Steps left in a task. -/
def weight : Task α → Nat
  | .sum _ rest => rest.length + 3
  | .store _ => 2
  | .share _ => 1
  | .done _ => 0

variable {C}

theorem contraction (h : C.Ok) {E z : ℚ} (hE : 0 ≤ E) {i : Nat} {row : List (Nat × α)} (hr : C.g[i]? = some row) (hz : |z - C.W row| ≤ E * C.W row) :
    |C.base + C.d * z - C.p i| ≤ C.rho * E * C.p i := by
  have hi : i < C.n := (List.getElem?_eq_some_iff.1 hr).1
  have e := h.eqn i row hr
  have e1 : C.base + C.d * z - C.p i = C.d * (z - C.W row) := by rw [e]; ring
  rw [e1, abs_mul, abs_of_nonneg h.d0]
  have e2 : C.d * |z - C.W row| ≤ E * (C.p i - C.base) := by
    have := mul_le_mul_of_nonneg_left hz h.d0
    calc C.d * |z - C.W row| ≤ C.d * (E * C.W row) := this
      _ = E * (C.p i - C.base) := by rw [e]; ring
  have e3 : C.p i - C.base ≤ C.rho * C.p i := by
    have := mul_le_mul_of_nonneg_left (h.hi i hi) h.base_pos.le
    unfold Ctx.rho
    linarith
  have := mul_le_mul_of_nonneg_left e3 hE
  linarith

theorem taskStep_ok (h : C.Ok) {E : ℚ} (hE : 0 ≤ E) {old : Nat → ℚ} {m : Mem} (hl1 : m.rank.length = C.n) (hl2 : m.contrib.length = C.n) (hc : ContribOk C E m)
    {i : Nat} {row : List (Nat × α)} (hr : C.g[i]? = some row) {t : Task α} (ht : TaskOk C E old m i row t) (hd : t.isDone = false) :
    ∃ r, taskStep C.base C.d C.deg m i t = .ok r ∧ r.2.rank.length = C.n ∧ r.2.contrib.length = C.n ∧ ContribOk C E r.2 ∧ TaskOk C E old r.2 i row r.1 ∧
      weight r.1 < weight t ∧ ∀ j, j ≠ i → r.2.rank[j]? = m.rank[j]? ∧ r.2.contrib[j]? = m.contrib[j]? := by
  have hi : i < C.n := (List.getElem?_eq_some_iff.1 hr).1
  cases t with
  | sum z rest =>
    obtain ⟨pre, h1, h2, h3⟩ := ht
    cases rest with
    | nil =>
      rw [List.append_nil] at h1
      subst h1
      exact ⟨(.store z, m), rfl, hl1, hl2, hc, ⟨h2, h3⟩, by simp [weight], fun j _ => ⟨rfl, rfl⟩⟩
    | cons e rest =>
      have he := h.edge hr (e := e) (by rw [h1]; simp)
      obtain ⟨c, c1, c2⟩ := hc e.1 (h.rows _ _ he) (h.used _ _ he)
      refine ⟨(.sum (z + c) rest, m), ?_, hl1, hl2, hc, ⟨pre ++ [e], by rw [h1]; simp, ?_, h3⟩, by simp [weight], fun j _ => ⟨rfl, rfl⟩⟩
      · unfold taskStep
        dsimp only
        have : vget m.contrib e.1 = .ok (some c) := vget_eq_ok.2 c1
        rw [this, res_bind_ok]; rfl
      · have e1 : C.W (pre ++ [e]) = C.W pre + C.share e.1 := by simp [Ctx.W]
        rw [e1]
        calc |z + c - (C.W pre + C.share e.1)| = |(z - C.W pre) + (c - C.share e.1)| := by congr 1; ring
          _ ≤ |z - C.W pre| + |c - C.share e.1| := abs_add_le _ _
          _ ≤ E * (C.W pre + C.share e.1) := by linarith
  | store z =>
    obtain ⟨h1, h2⟩ := ht
    refine ⟨(.share |C.base + C.d * z - old i|, { m with rank := m.rank.set i (C.base + C.d * z) }), ?_, by simpa using hl1, hl2, hc, ?_, by simp [weight], ?_⟩
    · unfold taskStep
      dsimp only
      have e1 : vget m.rank i = .ok (old i) := vget_eq_ok.2 h2
      rw [e1, res_bind_ok, vset_of_lt (by omega), res_bind_ok]
      have e2 : vget (m.rank.set i (C.base + C.d * z)) i = .ok (C.base + C.d * z) := vget_eq_ok.2 (by rw [List.getElem?_set_self (by omega)])
      rw [e2]; rfl
    · exact ⟨_, by rw [List.getElem?_set_self (by omega)], rfl, contraction h hE hr h1⟩
    · intro j hj
      exact ⟨by rw [List.getElem?_set_ne (Ne.symm hj)], rfl⟩
  | share err =>
    obtain ⟨x, h1, h2, h3⟩ := ht
    refine ⟨(.done err, { m with contrib := m.contrib.set i (quot x (C.dg i)) }), ?_, hl1, by simpa using hl2, ?_, ?_, by simp [weight], ?_⟩
    · unfold taskStep
      dsimp only
      have e1 : vget m.rank i = .ok x := vget_eq_ok.2 h1
      rw [e1, res_bind_ok, h.vget_deg hi, res_bind_ok, vset_of_lt (by omega)]; rfl
    · intro j hj hdj
      by_cases c : i = j
      · subst c
        refine ⟨x / C.dg i, ?_, ?_⟩
        · rw [List.getElem?_set_self (by omega)]
          unfold quot
          rw [if_neg (by omega)]
        · have hdp : (0 : ℚ) < C.dg i := by exact_mod_cast hdj
          unfold Ctx.share
          rw [← sub_div, abs_div, abs_of_pos hdp, mul_div_assoc']
          refine div_le_div_of_nonneg_right ?_ hdp.le
          have : C.rho * E * C.p i ≤ E * C.p i := by
            have h4 : C.rho * E ≤ 1 * E := mul_le_mul_of_nonneg_right h.rho_le hE
            have := mul_le_mul_of_nonneg_right h4 (h.p_pos hi).le
            linarith
          linarith
      · obtain ⟨c', c1, c2⟩ := hc j hj hdj
        exact ⟨c', by rw [List.getElem?_set_ne c]; exact c1, c2⟩
    · exact ⟨x, h1, h2, h3, by rw [List.getElem?_set_self (by omega)]⟩
    · intro j hj
      exact ⟨rfl, by rw [List.getElem?_set_ne (Ne.symm hj)]⟩
  | done err => cases hd

theorem TaskOk.frame {E : ℚ} {old : Nat → ℚ} {m m' : Mem} {j : Nat} {row : List (Nat × α)} {t : Task α} (ht : TaskOk C E old m j row t)
    (h : m'.rank[j]? = m.rank[j]? ∧ m'.contrib[j]? = m.contrib[j]?) : TaskOk C E old m' j row t := by
  cases t with
  | sum z rest => obtain ⟨pre, h1, h2, h3⟩ := ht; exact ⟨pre, h1, h2, by rw [h.1, h3]⟩
  | store z => exact ⟨ht.1, by rw [h.1, ht.2]⟩
  | share err => obtain ⟨x, h1, h2, h3⟩ := ht; exact ⟨x, by rw [h.1, h1], h2, h3⟩
  | done err => obtain ⟨x, h1, h2, h3, h4⟩ := ht; exact ⟨x, by rw [h.1, h1], h2, h3, by rw [h.2, h4]⟩

variable (C)

/-- The relative error after `k` rounds. -/
def bound (k : Nat) : ℚ := C.rho ^ k / (1 - C.d)

/-- The relative error when the changes of a round add up to less than the threshold. -/
def stopBound : ℚ := C.rho * C.threshold / (C.base * C.base)

/-- What is known during a round. -/
structure Inv (s : St α) : Prop where
  len1 : s.mem.rank.length = C.n
  len2 : s.mem.contrib.length = C.n
  len3 : s.tasks.length = C.n
  count : s.left + s.rounds + 1 = C.max
  old : ∃ old : Nat → ℚ, (∀ i, i < C.n → |old i - C.p i| ≤ bound C s.rounds * C.p i) ∧
    ∀ E, 0 ≤ E → (∀ i, i < C.n → |old i - C.p i| ≤ E * C.p i) →
      ContribOk C E s.mem ∧ ∀ (i : Nat) t row, s.tasks[i]? = some t → C.g[i]? = some row → TaskOk C E old s.mem i row t

/-- What is claimed of the result: the scores and the number of rounds. -/
def Result (r : List ℚ × Nat) : Prop :=
  r.2 ≤ C.max ∧ Close C.n C.p (bound C r.2) r.1 ∧ (r.2 < C.max → 0 ≤ C.threshold ∧ Close C.n C.p (stopBound C) r.1)

variable {C}

theorem bound_nonneg (h : C.Ok) (k : Nat) : 0 ≤ bound C k := div_nonneg (pow_nonneg h.rho_nonneg k) (by linarith [h.d1])

/-- The state at the beginning of a round. -/
theorem Inv.fresh {left rounds : Nat} {m : Mem} (hl1 : m.rank.length = C.n) (hl2 : m.contrib.length = C.n) (hcount : left + rounds + 1 = C.max)
    (hclose : ∀ (i : Nat) x, m.rank[i]? = some x → |x - C.p i| ≤ bound C rounds * C.p i) (hq : ∀ (i : Nat) x, m.rank[i]? = some x → m.contrib[i]? = some (quot x (C.dg i))) :
    Inv C { left := left, rounds := rounds, tasks := tasks C.g, mem := m } := by
  have hget : ∀ i, i < C.n → m.rank[i]? = some (m.rank.getD i 0) := by
    intro i hi
    rw [List.getD_eq_getElem?_getD, List.getElem?_eq_getElem (by omega)]; rfl
  refine ⟨hl1, hl2, by simp [tasks, Ctx.n], hcount, fun i => m.rank.getD i 0, fun i hi => hclose i _ (hget i hi), ?_⟩
  intro E hE hold
  refine ⟨?_, ?_⟩
  · intro j hj hdj
    have hdp : (0 : ℚ) < C.dg j := by exact_mod_cast hdj
    refine ⟨m.rank.getD j 0 / C.dg j, ?_, ?_⟩
    · rw [hq j _ (hget j hj)]
      unfold quot
      rw [if_neg (by omega)]
    · unfold Ctx.share
      rw [← sub_div, abs_div, abs_of_pos hdp, mul_div_assoc']
      exact div_le_div_of_nonneg_right (hold j hj) hdp.le
  · intro i t row hi hrow
    unfold tasks at hi
    rw [List.getElem?_map, hrow] at hi
    cases hi
    exact ⟨[], rfl, by simp [Ctx.W], hget i (List.getElem?_eq_some_iff.1 hrow).1⟩

theorem exists_argmax (n : Nat) (hn : 0 < n) (f : Nat → ℚ) : ∃ i, i < n ∧ ∀ j, j < n → f j ≤ f i := by
  induction n with
  | zero => omega
  | succ n ih =>
    rcases Nat.eq_zero_or_pos n with c | c
    · subst c
      exact ⟨0, by omega, fun j hj => by have : j = 0 := by omega
                                         rw [this]⟩
    · obtain ⟨i, h1, h2⟩ := ih c
      rcases le_total (f n) (f i) with d | d
      · refine ⟨i, by omega, fun j hj => ?_⟩
        rcases Nat.lt_or_ge j n with e | e
        · exact h2 j e
        · have : j = n := by omega
          rw [this]; exact d
      · refine ⟨n, by omega, fun j hj => ?_⟩
        rcases Nat.lt_or_ge j n with e | e
        · exact le_trans (h2 j e) d
        · have : j = n := by omega
          rw [this]

theorem sum_ge {l : List ℚ} (h : ∀ x ∈ l, 0 ≤ x) {y : ℚ} (hy : y ∈ l) : y ≤ l.sum := by
  induction l with
  | nil => cases hy
  | cons a l ih =>
    have hs : ∀ l : List ℚ, (∀ x ∈ l, 0 ≤ x) → 0 ≤ l.sum := by
      intro l
      induction l with
      | nil => simp
      | cons b l ih => intro h; rw [List.sum_cons]; exact add_nonneg (h b (by simp)) (ih fun x hx => h x (by simp [hx]))
    rw [List.sum_cons]
    rcases List.mem_cons.1 hy with rfl | hy
    · linarith [hs l fun x hx => h x (by simp [hx])]
    · linarith [ih (fun x hx => h x (by simp [hx])) hy, h a (by simp)]

/-- At the end of a round. -/
theorem join_ok (h : C.Ok) {s : St α} (hi : Inv C s) (hall : ∀ t ∈ s.tasks, t.isDone = true) :
    (∃ s', endRound C.g C.threshold s = .inl s' ∧ Inv C s' ∧ s'.left < s.left) ∨ ∃ r, endRound C.g C.threshold s = .inr r ∧ Result C r := by
  obtain ⟨old, o1, o2⟩ := hi.old
  have hmax := hi.count
  have hrow : ∀ i, i < C.n → ∃ row, C.g[i]? = some row := fun i hi => ⟨_, List.getElem?_eq_getElem hi⟩
  have hdone : ∀ i, i < C.n → ∃ err, s.tasks[i]? = some (.done err) := by
    intro i hin
    have hl : i < s.tasks.length := by rw [hi.len3]; exact hin
    have := hall _ (List.getElem_mem hl)
    cases ht : s.tasks[i] with
    | done err => exact ⟨err, by rw [List.getElem?_eq_getElem hl, ht]⟩
    | sum z rest => rw [ht] at this; cases this
    | store z => rw [ht] at this; cases this
    | share e => rw [ht] at this; cases this
  have key : ∀ E, 0 ≤ E → (∀ i, i < C.n → |old i - C.p i| ≤ E * C.p i) → ∀ (i : Nat) x, s.mem.rank[i]? = some x →
      |x - C.p i| ≤ C.rho * E * C.p i ∧ s.mem.contrib[i]? = some (quot x (C.dg i)) ∧ |x - old i| ∈ s.tasks.map Task.err := by
    intro E hE hE2 i x hx
    have hin : i < C.n := by rw [← hi.len1]; exact (List.getElem?_eq_some_iff.1 hx).1
    obtain ⟨row, hr⟩ := hrow i hin
    obtain ⟨err, he⟩ := hdone i hin
    obtain ⟨y, y1, y2, y3, y4⟩ := (o2 E hE hE2).2 i _ row he hr
    rw [hx] at y1
    cases y1
    exact ⟨y3, y4, List.mem_map.2 ⟨_, List.mem_of_getElem? he, y2⟩⟩
  have k0 := key (bound C s.rounds) (bound_nonneg h _) o1
  have hb : ∀ (i : Nat) x, s.mem.rank[i]? = some x → |x - C.p i| ≤ bound C (s.rounds + 1) * C.p i := by
    intro i x hx
    have e : bound C (s.rounds + 1) = C.rho * bound C s.rounds := by unfold bound; rw [pow_succ]; ring
    rw [e]
    exact (k0 i x hx).1
  unfold endRound
  split
  · rename_i hlt
    right
    refine ⟨_, rfl, by simp only; omega, ⟨hi.len1, hb⟩, ?_⟩
    -- the stopping criterion
    obtain ⟨j, hj, hjm⟩ := exists_argmax C.n h.pos fun i => |old i - C.p i| / C.p i
    have hE : 0 ≤ |old j - C.p j| / C.p j := div_nonneg (abs_nonneg _) (h.p_pos hj).le
    have kE := key (|old j - C.p j| / C.p j) hE (fun i hi => by
      rw [← div_le_iff₀ (h.p_pos hi)]; exact hjm i hi)
    set E := |old j - C.p j| / C.p j with hEdef
    have hx : s.mem.rank[j]? = some (s.mem.rank.getD j 0) := by
      rw [List.getD_eq_getElem?_getD, List.getElem?_eq_getElem (by rw [hi.len1]; exact hj)]; rfl
    obtain ⟨x1, -, x3⟩ := kE j _ hx
    set x := s.mem.rank.getD j 0
    have herr : |x - old j| < C.threshold := by
      refine lt_of_le_of_lt (sum_ge (l := s.tasks.map Task.err) ?_ x3) hlt
      intro y hy
      obtain ⟨t, ht, rfl⟩ := List.mem_map.1 hy
      obtain ⟨i, hti⟩ := List.getElem?_of_mem ht
      have hin : i < C.n := by rw [← hi.len3]; exact (List.getElem?_eq_some_iff.1 hti).1
      obtain ⟨err, he⟩ := hdone i hin
      rw [hti] at he
      cases he
      obtain ⟨row, hr⟩ := hrow i hin
      obtain ⟨y, -, y2, -⟩ := (o2 _ (bound_nonneg h _) o1).2 i _ row hti hr
      simp only [Task.err]
      rw [y2]
      exact abs_nonneg _
    have hEp : E * C.p j = |old j - C.p j| := div_mul_cancel₀ _ (ne_of_gt (h.p_pos hj))
    have htri : |old j - C.p j| ≤ |x - old j| + |x - C.p j| := by
      calc |old j - C.p j| = |-(x - old j) + (x - C.p j)| := by congr 1; ring
        _ ≤ |-(x - old j)| + |x - C.p j| := abs_add_le _ _
        _ = |x - old j| + |x - C.p j| := by rw [abs_neg]
    have hEle : E * (C.base * C.base) ≤ C.threshold := by
      have h1 : E * C.p j - C.rho * E * C.p j ≤ C.threshold := by linarith
      have h2 : E * C.p j - C.rho * E * C.p j = E * (C.base * C.p j) := by unfold Ctx.rho; ring
      have h3 : E * (C.base * C.base) ≤ E * (C.base * C.p j) :=
        mul_le_mul_of_nonneg_left (mul_le_mul_of_nonneg_left (h.lo j hj) h.base_pos.le) hE
      linarith
    refine fun _ => ⟨le_trans (abs_nonneg _) herr.le, hi.len1, ?_⟩
    intro i y hy
    have hin : i < C.n := by rw [← hi.len1]; exact (List.getElem?_eq_some_iff.1 hy).1
    refine le_trans (kE i y hy).1 (mul_le_mul_of_nonneg_right ?_ (h.p_pos hin).le)
    unfold stopBound
    rw [mul_div_assoc]
    refine mul_le_mul_of_nonneg_left ?_ h.rho_nonneg
    rw [le_div_iff₀ (mul_pos h.base_pos h.base_pos)]
    exact hEle
  · cases hleft : s.left with
    | zero =>
      right
      refine ⟨_, rfl, by simp only; omega, ⟨hi.len1, hb⟩, fun hlt => by simp only at hlt; omega⟩
    | succ k =>
      left
      exact ⟨_, rfl, Inv.fresh hi.len1 hi.len2 (by omega) hb fun i x hx => (k0 i x hx).2.1, by simp⟩

theorem step_sure (h : C.Ok) (s : St α) (hs : Inv C s) : Sure (Step C.g C.base C.d C.deg C.threshold) (Result C) s := by
  refine Sure.of_inv (Prod.lex Nat.lt_wfRel Nat.lt_wfRel).wf (fun s : St α => (s.left, (s.tasks.map weight).sum)) (Inv C) ?_ ?_ s hs
  · intro s _
    by_cases hall : ∀ t ∈ s.tasks, t.isDone = true
    · exact ⟨_, .join hall⟩
    · push Not at hall
      obtain ⟨t, ht, hn⟩ := hall
      obtain ⟨i, hi⟩ := List.getElem?_of_mem ht
      exact ⟨_, .task hi (by simpa using hn)⟩
  · intro s o hi hst
    cases hst with
    | @task i t hti htd =>
      left
      obtain ⟨old, o1, o2⟩ := hi.old
      have hin : i < C.n := by rw [← hi.len3]; exact (List.getElem?_eq_some_iff.1 hti).1
      have hr : C.g[i]? = some (C.g[i]'hin) := List.getElem?_eq_getElem hin
      have step : ∀ E, 0 ≤ E → (∀ i, i < C.n → |old i - C.p i| ≤ E * C.p i) → _ := fun E hE hE2 =>
        taskStep_ok h hE hi.len1 hi.len2 (o2 E hE hE2).1 hr ((o2 E hE hE2).2 i t _ hti hr) htd
      obtain ⟨r, r1, r2, r3, -, -, r6, r7⟩ := step _ (bound_nonneg h _) o1
      rw [r1]
      refine ⟨_, rfl, ⟨r2, r3, by simpa using hi.len3, hi.count, old, o1, ?_⟩, ?_⟩
      · intro E hE hE2
        obtain ⟨r', e1, -, -, e4, e5, -, -⟩ := step E hE hE2
        rw [r1] at e1
        cases e1
        refine ⟨e4, ?_⟩
        intro j t' row' hj hrow
        rcases getElem?_set_cases hj with ⟨rfl, rfl⟩ | ⟨hne, hj'⟩
        · rw [hr] at hrow; cases hrow; exact e5
        · exact ((o2 E hE hE2).2 j t' row' hj' hrow).frame (r7 j (Ne.symm hne))
      · refine Prod.Lex.right _ ?_
        exact sum_map_set_lt weight hti r6
    | join hall =>
      rcases join_ok h hi hall with ⟨s', e1, e2, e3⟩ | ⟨r, e1, e2⟩
      · left
        rw [e1]
        exact ⟨s', rfl, e2, Prod.Lex.left _ _ e3⟩
      · right
        rw [e1]
        exact ⟨r, rfl, e2⟩

theorem start_ok (n : Nat) (deg : List Nat) (hdeg : deg.length = n) (rank : List ℚ) (hrank : rank.length = n) :
    ∃ m, start n deg rank = .ok m ∧ m.rank.length = n ∧ m.contrib.length = n ∧ (∀ (i : Nat) x, m.rank[i]? = some x → x = 1 / (n : ℚ)) ∧
      ∀ (i : Nat) x, m.rank[i]? = some x → m.contrib[i]? = some (quot x (deg.getD i 0)) := by
  obtain ⟨r, h1, h2, h3⟩ := foldlM_range_inv (n := n) (f := fun r i => vset r i (1 / (n : ℚ))) (s := rank)
    (fun k r => r.length = n ∧ ∀ i, i < k → r[i]? = some (1 / (n : ℚ))) ⟨hrank, by omega⟩ (by
      rintro k hk r ⟨h1, h2⟩
      refine ⟨_, vset_of_lt (by omega), by simpa using h1, ?_⟩
      intro i hi
      rw [List.getElem?_set]
      split
      · rename_i e; subst e; rw [if_pos (by omega)]
      · exact h2 i (by omega))
  have e2 : (List.range n).mapM (fun i => do
      let x ← vget r i
      let k ← vget deg i
      return quot x k) = .ok ((List.range n).map fun i => quot (1 / (n : ℚ)) (deg.getD i 0)) := by
    refine mapM_ok_of_forall fun i hi => ?_
    have hi := List.mem_range.1 hi
    have e3 : vget r i = .ok (1 / (n : ℚ)) := vget_eq_ok.2 (h3 i hi)
    have e4 : vget deg i = .ok (deg.getD i 0) := by
      rw [vget_of_lt (by omega), List.getD_eq_getElem?_getD, List.getElem?_eq_getElem (by omega)]; rfl
    rw [e3, res_bind_ok, e4]; rfl
  refine ⟨⟨r, (List.range n).map fun i => quot (1 / (n : ℚ)) (deg.getD i 0)⟩, ?_, h2, by simp, ?_, ?_⟩
  · unfold start
    rw [h1, res_bind_ok, e2]; rfl
  · intro i x hx
    have hi : i < n := by rw [← h2]; exact (List.getElem?_eq_some_iff.1 hx).1
    rw [h3 i hi] at hx
    exact (Option.some.inj hx).symm
  · intro i x hx
    have hi : i < n := by rw [← h2]; exact (List.getElem?_eq_some_iff.1 hx).1
    have hx' := hx
    simp only at hx
    rw [h3 i hi] at hx
    simp only [List.getElem?_map, List.getElem?_range hi, Option.map_some]
    rw [(Option.some.inj hx).symm]

/-- The hypotheses of C71 are enough for the invariant. -/
theorem Ctx.Ok.of_isPageRank {g : Rows α} (hne : g ≠ []) (hg : InRange g) {deg : List Nat} (hlen : deg.length = g.length)
    (hdeg : ∀ j, j < g.length → listed g j ≤ deg.getD j 0) {d : ℚ} (threshold : ℚ) (h0 : 0 ≤ d) (h1 : d < 1) (maxIters : Nat) {p : Nat → ℚ}
    (hp : IsPageRank g (fun j => deg.getD j 0) d p) : Ctx.Ok { g := g, deg := deg, d := d, threshold := threshold, max := maxIters, p := p } := by
  have hbd := pageRank_bounds g hg _ hdeg h0 h1 hp
  have hpos : 0 < g.length := by cases g with | nil => exact absurd rfl hne | cons => simp
  refine ⟨hlen, hg, ?_, hpos, h0, h1, ?_, fun i hi => (hbd i hi).1, fun i hi => (hbd i hi).2⟩
  · intro i j he
    have hj := hg i j he
    refine Nat.lt_of_lt_of_le ?_ (hdeg j hj)
    unfold listed
    rw [List.count_pos_iff]
    have hi := he.src_lt
    unfold Edge nbrs at he
    rw [List.getD_eq_getElem?_getD, List.getElem?_eq_getElem hi] at he
    obtain ⟨x, hx, rfl⟩ := List.mem_map.1 he
    exact List.mem_map_of_mem (List.mem_flatten.2 ⟨_, List.getElem_mem hi, hx⟩)
  · intro i row hr
    have hi : i < g.length := (List.getElem?_eq_some_iff.1 hr).1
    have := hp i hi
    unfold nbrs at this
    rw [List.getD_eq_getElem?_getD, show g[i]? = some row from hr, Option.getD_some, List.map_map] at this
    exact this

/-- The result in the words of C71. -/
theorem Result.approx {C : Ctx α} (hC : C.Ok) {r : List ℚ × Nat} (h : Result C r) :
    r.2 ≤ C.max ∧ Close C.g.length C.p ((1 - (1 - C.d) / C.g.length) ^ r.2 / (1 - C.d)) r.1 ∧
      (r.2 < C.max → Close C.g.length C.p (C.threshold * C.g.length ^ 2 / (1 - C.d) ^ 2) r.1) := by
  obtain ⟨r1, r2, r3⟩ := h
  have hn : (0 : ℚ) < C.g.length := by exact_mod_cast hC.pos
  refine ⟨r1, r2, fun hlt => ?_⟩
  obtain ⟨ht, l, hl⟩ := r3 hlt
  refine ⟨l, fun i y hy => le_trans (hl i y hy) ?_⟩
  have hi : i < C.n := by rw [← show r.1.length = C.n from l]; exact (List.getElem?_eq_some_iff.1 hy).1
  refine mul_le_mul_of_nonneg_right ?_ (hC.p_pos (i := i) hi).le
  have hd : 0 < 1 - C.d := by linarith [hC.d1]
  have e : C.threshold * (C.g.length : ℚ) ^ 2 / (1 - C.d) ^ 2 = C.threshold / (C.base * C.base) := by
    have : C.base = (1 - C.d) / C.g.length := rfl
    rw [this]; field_simp
  rw [e]
  unfold stopBound
  refine div_le_div_of_nonneg_right ?_ (mul_pos hC.base_pos hC.base_pos).le
  have := mul_le_mul_of_nonneg_right hC.rho_le ht
  linarith

/-- C71.  Let row `i` list the vertices linking to `i`, let `degrees` be at least the numbers of links, with no listed vertex of degree zero, and `0 ≤ d < 1`.  Then there is exactly
one PageRank vector `p`, and under every schedule of the threads `page_rank` ends without a fault after some number `k ≤ max_iters` of rounds with scores whose relative
error is at most `(1 - (1 - d)/n)^k / (1 - d)`; if it stops before `max_iters` rounds, the relative error is also at most `threshold · n² / (1 - d)²`. -/
theorem page_rank_converges (g : Rows α) (hne : g ≠ []) (hg : InRange g) (deg : List Nat) (hlen : deg.length = g.length)
    (hdeg : ∀ j, j < g.length → listed g j ≤ deg.getD j 0) (d threshold : ℚ) (h0 : 0 ≤ d) (h1 : d < 1) (maxIters : Nat) (rank : List ℚ) (hrank : rank.length = g.length) :
    ∃ p : Nat → ℚ, IsPageRank g (fun j => deg.getD j 0) d p ∧
      (∀ q, IsPageRank g (fun j => deg.getD j 0) d q → ∀ i, i < g.length → q i = p i) ∧
      (∀ i, i < g.length → (1 - d) / g.length ≤ p i ∧ p i ≤ 1) ∧
      Always g deg d threshold maxIters rank fun r => r.2 ≤ maxIters ∧ Close g.length p ((1 - (1 - d) / g.length) ^ r.2 / (1 - d)) r.1 ∧
        (r.2 < maxIters → Close g.length p (threshold * g.length ^ 2 / (1 - d) ^ 2) r.1) := by
  obtain ⟨p, hp⟩ := exists_pageRank g hg (fun j => deg.getD j 0) hdeg h0 h1
  have hbd := pageRank_bounds g hg _ hdeg h0 h1 hp
  refine ⟨p, hp, fun q hq => pageRank_unique g hg _ hdeg h0 h1 hq hp, hbd, ?_⟩
  have hpos : 0 < g.length := by cases g with | nil => exact absurd rfl hne | cons => simp
  have hn : (0 : ℚ) < g.length := by exact_mod_cast hpos
  let C : Ctx α := { g := g, deg := deg, d := d, threshold := threshold, max := maxIters, p := p }
  have hC : C.Ok := .of_isPageRank hne hg hlen hdeg threshold h0 h1 maxIters hp
  obtain ⟨m, m1, m2, m3, m4, m5⟩ := start_ok g.length deg hlen rank hrank
  have hinit : ∀ (i : Nat) x, m.rank[i]? = some x → |x - p i| ≤ bound C 0 * p i := by
    intro i x hx
    have hi : i < g.length := by rw [← m2]; exact (List.getElem?_eq_some_iff.1 hx).1
    rw [m4 i x hx]
    have hb0 : bound C 0 = 1 / (1 - d) := by simp [bound, C]
    have hd : 0 < 1 - d := by linarith
    obtain ⟨l1, l2⟩ := hbd i hi
    have hpp : 0 ≤ p i := le_trans (div_nonneg hd.le hn.le) l1
    have e1 : 1 / (g.length : ℚ) ≤ 1 / (1 - d) * p i := by
      rw [one_div_mul_eq_div, le_div_iff₀ hd, one_div_mul_eq_div]; exact l1
    have e2 : p i ≤ 1 / (1 - d) * p i := by
      rw [one_div_mul_eq_div, le_div_iff₀ hd]
      nlinarith
    have e3 : 0 ≤ 1 / (g.length : ℚ) := by positivity
    rw [hb0, abs_le]
    constructor <;> linarith
  have hres : ∀ r, Result C r → r.2 ≤ maxIters ∧ Close g.length p ((1 - (1 - d) / g.length) ^ r.2 / (1 - d)) r.1 ∧
        (r.2 < maxIters → Close g.length p (threshold * g.length ^ 2 / (1 - d) ^ 2) r.1) := fun r hr => hr.approx hC
  unfold Always
  rw [m1]
  dsimp only
  cases hm : maxIters with
  | zero =>
    have := hres (m.rank, 0) ⟨by simp, ⟨m2, hinit⟩, fun hlt => by simp only [C, hm] at hlt; omega⟩
    rw [hm] at this
    exact this
  | succ k =>
    dsimp only
    have hs := step_sure hC _ (Inv.fresh (C := C) (left := k) (rounds := 0) m2 m3 (show k + 0 + 1 = maxIters by omega) hinit m5)
    rw [← hm]
    exact hs.mono hres

theorem Always.outcome {g : Rows α} {deg : List Nat} {d threshold : ℚ} {maxIters : Nat} {rank : List ℚ} {Q : List ℚ × Nat → Prop} (h : Always g deg d threshold maxIters rank Q) :
    (∃ r, Outcome g deg d threshold maxIters rank (.ok r)) ∧ ∀ o, Outcome g deg d threshold maxIters rank o → ∃ r, o = .ok r ∧ Q r := by
  unfold Always at h
  unfold Outcome
  cases hs : start g.length deg rank with
  | error f => rw [hs] at h; exact h.elim
  | ok m =>
    rw [hs] at h
    dsimp only at h ⊢
    cases maxIters with
    | zero => exact ⟨⟨_, rfl⟩, fun o ho => ⟨_, ho, h⟩⟩
    | succ k => exact ⟨(Sure.exists_run h).imp fun _ hr => hr.1, fun o ho => Sure.outcome h ho⟩

/-- C71.  With exact degrees, all of them positive, the scores the program approximates add up to one. -/
theorem page_rank_total (g : Rows α) (hne : g ≠ []) (hg : InRange g) (deg : List Nat) (hdeg : ∀ j, j < g.length → listed g j = deg.getD j 0 ∧ 0 < deg.getD j 0) (d : ℚ) (h1 : d < 1)
    (p : Nat → ℚ) (hp : IsPageRank g (fun j => deg.getD j 0) d p) : ((List.range g.length).map p).sum = 1 := by
  have hn : (0 : ℚ) < g.length := by
    have : 0 < g.length := by cases g with | nil => exact absurd rfl hne | cons => simp
    exact_mod_cast this
  have e1 : ∑ i ∈ Finset.range g.length, p i = ∑ i ∈ Finset.range g.length, ((1 - d) / g.length + d * ((nbrs g i).map fun j => p j / (deg.getD j 0 : ℚ)).sum) :=
    Finset.sum_congr rfl fun i hi => hp i (Finset.mem_range.1 hi)
  rw [Finset.sum_add_distrib, ← Finset.mul_sum, sum_rows, sum_count _ g.length fun j => mem_flatten_lt hg] at e1
  have e2 : ∑ j ∈ Finset.range g.length, (((g.flatten.map Prod.fst).count j : Nat) : ℚ) * (p j / (deg.getD j 0 : ℚ)) = ∑ j ∈ Finset.range g.length, p j := by
    refine Finset.sum_congr rfl fun j hj => ?_
    obtain ⟨h2, h3⟩ := hdeg j (Finset.mem_range.1 hj)
    have h4 : (0 : ℚ) < (deg.getD j 0 : ℚ) := by exact_mod_cast h3
    change ((listed g j : Nat) : ℚ) * _ = _
    rw [h2]
    field_simp
  rw [e2, Finset.sum_const, Finset.card_range, nsmul_eq_mul] at e1
  have e3 : (g.length : ℚ) * ((1 - d) / g.length) = 1 - d := by field_simp
  rw [e3] at e1
  have e4 : ((List.range g.length).map p).sum = ∑ i ∈ Finset.range g.length, p i := rfl
  rw [e4]
  have h5 : (1 - d) * (∑ i ∈ Finset.range g.length, p i) = (1 - d) * 1 := by linarith
  exact mul_left_cancel₀ (by linarith) h5

theorem bind_ok_inv {β γ : Type} {x : Res β} {f : β → Res γ} {c : γ} (h : (x >>= f) = .ok c) : ∃ b, x = .ok b ∧ f b = .ok c := by
  cases x with
  | error e => cases h
  | ok b => exact ⟨b, rfl, h⟩

/-- A step leaves a contribution of a vertex of degree zero undefined. -/
theorem taskStep_none {base d : ℚ} {deg : List Nat} {m : Mem} {i j : Nat} {t : Task α} {y : Task α × Mem} (h : taskStep base d deg m i t = .ok y) (hz : deg[j]? = some 0)
    (hc : m.contrib[j]? = some none) : y.2.contrib[j]? = some none := by
  cases t with
  | sum z rest =>
    cases rest with
    | nil => cases h; exact hc
    | cons e rest =>
      obtain ⟨c, -, h⟩ := bind_ok_inv h
      cases c with
      | none => cases h
      | some c => cases h; exact hc
  | store z =>
    obtain ⟨old, -, h⟩ := bind_ok_inv h
    obtain ⟨rk, -, h⟩ := bind_ok_inv h
    obtain ⟨new, -, h⟩ := bind_ok_inv h
    cases h; exact hc
  | share err =>
    obtain ⟨x, -, h⟩ := bind_ok_inv h
    obtain ⟨n, hn, h⟩ := bind_ok_inv h
    obtain ⟨c, hcc, h⟩ := bind_ok_inv h
    cases h
    have hn := vget_eq_ok.1 hn
    unfold vset at hcc
    split at hcc
    · cases hcc
      show (m.contrib.set i (quot x n))[j]? = some none
      by_cases e : i = j
      · subst e
        rw [hz] at hn
        cases hn
        rw [List.getElem?_set_self (by assumption)]
        rfl
      · rw [List.getElem?_set_ne e]; exact hc
    · cases hcc
  | done err => cases h; exact hc

/-- C71.  A listed vertex of degree zero spoils the result: no schedule ends with scores all of which are numbers. -/
theorem page_rank_zero_degree (g : Rows α) (deg : List Nat) (i j : Nat) (he : Edge g i j) (hz : deg[j]? = some 0) (hj : j < g.length) (d threshold : ℚ) (maxIters : Nat)
    (hm : 0 < maxIters) (rank : List ℚ) (r : List ℚ × Nat) : ¬ Outcome g deg d threshold maxIters rank (.ok r) := by
  intro ho
  unfold Outcome at ho
  cases hs : start g.length deg rank with
  | error f => rw [hs] at ho; cases ho
  | ok m =>
    rw [hs] at ho
    dsimp only at ho
    cases maxIters with
    | zero => omega
    | succ k =>
      dsimp only at ho
      have hc : m.contrib[j]? = some none := by
        unfold start at hs
        cases h1 : (List.range g.length).foldlM (fun r i => vset r i (1 / (g.length : ℚ))) rank with
        | error f => rw [h1] at hs; cases hs
        | ok rk =>
          rw [h1, res_bind_ok] at hs
          cases h2 : (List.range g.length).mapM (fun i => do
            let x ← vget rk i
            let k ← vget deg i
            return quot x k : Nat → Res (Option ℚ)) with
          | error f => rw [h2] at hs; cases hs
          | ok c =>
            rw [h2, res_bind_ok] at hs
            cases hs
            have hl := mapM_ok_length h2
            rw [List.length_range] at hl
            have h3 := mapM_ok_getElem h2 j (by simpa using hj)
            rw [List.getElem_range] at h3
            obtain ⟨x, -, h3⟩ := bind_ok_inv h3
            obtain ⟨n, hn, h3⟩ := bind_ok_inv h3
            have hn := vget_eq_ok.1 hn
            rw [hz] at hn
            cases hn
            have h3 := Except.ok.inj h3
            show c[j]? = _
            rw [List.getElem?_eq_getElem (by omega), ← h3]
            rfl
      have hi := he.src_lt
      unfold Edge nbrs at he
      rw [List.getD_eq_getElem?_getD, List.getElem?_eq_getElem hi, Option.getD_some] at he
      have ht : ∃ z rest, (tasks g)[i]? = some (Task.sum z rest) ∧ j ∈ rest.map Prod.fst :=
        ⟨0, g[i], by unfold tasks; rw [List.getElem?_map, List.getElem?_eq_getElem hi]; rfl, he⟩
      clear hs
      generalize hst : ({ left := k, rounds := 0, tasks := tasks g, mem := m } : St α) = s at ho
      have hcs : s.mem.contrib[j]? = some none := by rw [← hst]; exact hc
      have hts : ∃ z rest, s.tasks[i]? = some (Task.sum z rest) ∧ j ∈ rest.map Prod.fst := by rw [← hst]; exact ht
      clear hst
      generalize hoo : (Except.ok r : Res (List ℚ × Nat)) = o at ho
      induction ho with
      | fault h => cases hoo
      | @done s r' h =>
        obtain ⟨z, rest, h1, -⟩ := hts
        generalize hx : (Except.ok (Sum.inr r') : Res (St α ⊕ List ℚ × Nat)) = x at h
        cases h with
        | @task i' t h2 h3 =>
          cases h4 : taskStep ((1 - d) / g.length) d deg s.mem i' t with
          | error f => rw [h4] at hx; cases hx
          | ok y => rw [h4] at hx; cases hx
        | join h2 => exact absurd (h2 _ (List.mem_of_getElem? h1)) (by simp [Task.isDone])
      | @step s s' o' h _ ih =>
        obtain ⟨z, rest, h1, h1'⟩ := hts
        generalize hx : (Except.ok (Sum.inl s') : Res (St α ⊕ List ℚ × Nat)) = x at h
        cases h with
        | join h2 => exact absurd (h2 _ (List.mem_of_getElem? h1)) (by simp [Task.isDone])
        | @task i' t h2 h3 =>
          cases h4 : taskStep ((1 - d) / g.length) d deg s.mem i' t with
          | error f => rw [h4] at hx; cases hx
          | ok y =>
            rw [h4] at hx
            cases hx
            refine ih ?_ ?_ hoo
            · exact taskStep_none h4 hz hcs
            · by_cases e : i' = i
              · subst e
                rw [h1] at h2
                cases h2
                cases rest with
                | nil => simp at h1'
                | cons e rest =>
                  obtain ⟨c, hc', h4⟩ := bind_ok_inv h4
                  have hc' := vget_eq_ok.1 hc'
                  by_cases ej : e.1 = j
                  · rw [ej, hcs] at hc'
                    cases hc'
                    cases h4
                  · cases c with
                    | none => cases h4
                    | some c =>
                      cases h4
                      refine ⟨z + c, rest, ?_, ?_⟩
                      · show (s.tasks.set i' _)[i']? = _
                        rw [List.getElem?_set_self (List.getElem?_eq_some_iff.1 h1).1]
                      · rcases List.mem_cons.1 h1' with h5 | h5
                        · exact absurd h5.symm ej
                        · exact h5
              · refine ⟨z, rest, ?_, h1'⟩
                show (s.tasks.set i' _)[i]? = _
                rw [List.getElem?_set_ne e]; exact h1

/-- The hypotheses of `page_rank_converges` hold for a vertex linked with two others. -/
example : ∃ p : Nat → ℚ, IsPageRank ([[(1, ()), (2, ())], [(0, ())], [(0, ())]] : Rows Unit) (fun j => [2, 1, 1].getD j 0) (17 / 20) p ∧
    Always ([[(1, ()), (2, ())], [(0, ())], [(0, ())]] : Rows Unit) [2, 1, 1] (17 / 20) (1 / 10000) 1000 [0, 0, 0] fun r =>
      r.2 < 1000 → Close 3 p (1 / 10000 * 3 ^ 2 / (1 - 17 / 20) ^ 2) r.1 := by
  obtain ⟨p, h1, -, -, h4⟩ := page_rank_converges ([[(1, ()), (2, ())], [(0, ())], [(0, ())]] : Rows Unit) (by simp) (by decide) [2, 1, 1] rfl (by decide) (17 / 20) (1 / 10000)
    (by norm_num) (by norm_num) 1000 [0, 0, 0] rfl
  refine ⟨p, h1, ?_⟩
  unfold Always at h4 ⊢
  split at h4
  · exact h4
  · exact Sure.mono h4 fun r hr => hr.2.2

/-- A vertex without links of its own that links to another one, i.e. degrees of the wrong direction. -/
example (r : List ℚ × Nat) : ¬ Outcome ([[(1, ())], []] : Rows Unit) [1, 0] (17 / 20) (1 / 10000) 1000 [0, 0] (.ok r) :=
  page_rank_zero_degree _ _ 0 1 (by decide) rfl (by decide) _ _ _ (by decide) _ _

end NW.PageRank
