import Verif.Model.Cc
import Verif.Lemmas.Forest

/-! # Lemmas: invariant of concurrent linking and compressing -/

namespace NW.Cc
open Spec Forest

/-- The pointer of `x`. -/
def par (comp : List Nat) (x : Nat) : Nat := comp.getD x x

theorem par_get {comp : List Nat} {N x : Nat} (hl : comp.length = N) (hx : x < N) : vget comp x = .ok (par comp x) := by
  rw [vget_of_lt (by omega), par, List.getD_eq_getElem?_getD, List.getElem?_eq_getElem (by omega)]; rfl

theorem par_set {comp : List Nat} {N n b : Nat} (hl : comp.length = N) (hn : n < N) (x : Nat) :
    par (comp.set n b) x = if x = n then b else par comp x := by
  simp only [par, List.getD_eq_getElem?_getD, List.getElem?_set]
  by_cases c : n = x
  · subst c; simp [hl, hn]
  · have : x ≠ n := fun e => c e.symm
    simp [c, this]

/-- `{p, q}` are in the trees of `{u, v}`. -/
def Pair (f : Nat → Nat) (u v p q : Nat) : Prop :=
  (root f p = root f u ∧ root f q = root f v) ∨ (root f p = root f v ∧ root f q = root f u)

def LinkOk (E : Nat → Nat → Prop) (N : Nat) (e : Nat × Nat) : Prop := e.1 < N ∧ e.2 < N ∧ Conn E e.1 e.2

/-- What is known about a task; `q` says that no `link` is running. -/
def PcOk (E : Nat → Nat → Prop) (N : Nat) (q : Prop) (f : Nat → Nat) : Pc → Prop
  | .idle => ¬ q
  | .gate u _ => u < N ∧ ¬ q
  | .link1 u v => LinkOk E N (u, v) ∧ ¬ q
  | .link2 u v p1 => LinkOk E N (u, v) ∧ ¬ q ∧ p1 < N ∧ root f p1 = root f u
  | .head u v p1 p2 => LinkOk E N (u, v) ∧ ¬ q ∧ p1 < N ∧ p2 < N ∧ Pair f u v p1 p2
  | .high u v h l => LinkOk E N (u, v) ∧ ¬ q ∧ l < h ∧ h < N ∧ Pair f u v h l
  | .cas u v h l ph => LinkOk E N (u, v) ∧ ¬ q ∧ l < h ∧ h < N ∧ Pair f u v h l ∧ ph ≤ h ∧ root f ph = root f h
  | .next1 u v h l ph => LinkOk E N (u, v) ∧ ¬ q ∧ l < h ∧ h < N ∧ ph ≤ h ∧ Pair f u v ph l ∧ f ph < h
  | .next2 u v h l p1 => LinkOk E N (u, v) ∧ ¬ q ∧ l < h ∧ h < N ∧ p1 < h ∧ Pair f u v p1 l
  | .cmpA n => n < N
  | .cmpB n a => n < N ∧ (a = f n ∨ (a = n ∧ f n < n)) ∧ (q → a = f n)
  | .cmpC n a b => n < N ∧ (a = b ∨ a = n) ∧ (b = f n ∨ (b = n ∧ f n < n)) ∧ (q → a = f n ∧ b = f n)
  | .cmpFoo n a => n < N ∧ f n < n ∧ (a ≠ n → f (f n) < f n)
  | .cmpBar n a foo => n < N ∧ f n < n ∧ foo = f n ∧ (a ≠ n → f foo < foo)
  | .cmpStore n a bar => n < N ∧ f n < n ∧ bar ≤ f n ∧ (a ≠ n → bar < f n) ∧ root f bar = root f n
  | .cmpDone n => n < N ∧ (q → f (f n) = f n)

/-- The vertex a task compresses. -/
def Pc.owns : Pc → Option Nat
  | .cmpA n | .cmpB n _ | .cmpC n _ _ | .cmpFoo n _ | .cmpBar n _ _ | .cmpStore n _ _ | .cmpDone n => some n
  | _ => none

/-- A change of the pointers by another task. -/
structure Change (q : Prop) (f f' : Nat → Nat) : Prop where
  le : ∀ x, f' x ≤ f x
  roots : ∀ x y, root f x = root f y → root f' x = root f' y
  quiet : q → ∀ x, f x = x → f' x = x

theorem Change.refl (q : Prop) (f : Nat → Nat) : Change q f f := ⟨fun _ => Nat.le_refl _, fun _ _ h => h, fun _ _ h => h⟩

theorem Pair.change {q : Prop} {f f' : Nat → Nat} (h : Change q f f') {u v p r : Nat} (hp : Pair f u v p r) : Pair f' u v p r := by
  rcases hp with ⟨h1, h2⟩ | ⟨h1, h2⟩
  · exact Or.inl ⟨h.roots _ _ h1, h.roots _ _ h2⟩
  · exact Or.inr ⟨h.roots _ _ h1, h.roots _ _ h2⟩

theorem PcOk.change {E : Nat → Nat → Prop} {N : Nat} {q : Prop} {f f' : Nat → Nat} (h : Change q f f') {pc : Pc} (hp : PcOk E N q f pc)
    (hown : ∀ n, pc.owns = some n → f' n = f n ∨ (f n = n ∧ f' n < n)) : PcOk E N q f' pc := by
  cases pc with
  | idle => exact hp
  | gate u c => exact hp
  | link1 u v => exact hp
  | link2 u v p1 => exact ⟨hp.1, hp.2.1, hp.2.2.1, h.roots _ _ hp.2.2.2⟩
  | head u v p1 p2 => exact ⟨hp.1, hp.2.1, hp.2.2.1, hp.2.2.2.1, hp.2.2.2.2.change h⟩
  | high u v a b => exact ⟨hp.1, hp.2.1, hp.2.2.1, hp.2.2.2.1, hp.2.2.2.2.change h⟩
  | cas u v a b ph => exact ⟨hp.1, hp.2.1, hp.2.2.1, hp.2.2.2.1, hp.2.2.2.2.1.change h, hp.2.2.2.2.2.1, h.roots _ _ hp.2.2.2.2.2.2⟩
  | next1 u v a b ph =>
    exact ⟨hp.1, hp.2.1, hp.2.2.1, hp.2.2.2.1, hp.2.2.2.2.1, hp.2.2.2.2.2.1.change h, Nat.lt_of_le_of_lt (h.le _) hp.2.2.2.2.2.2⟩
  | next2 u v a b p1 => exact ⟨hp.1, hp.2.1, hp.2.2.1, hp.2.2.2.1, hp.2.2.2.2.1, hp.2.2.2.2.2.change h⟩
  | cmpA n => exact hp
  | cmpB n a =>
    obtain ⟨h1, h2, h3⟩ := hp
    refine ⟨h1, ?_, ?_⟩
    · rcases hown n rfl with k | ⟨k1, k2⟩
      · rw [k]; exact h2
      · rcases h2 with h2 | h2
        · exact Or.inr ⟨by omega, k2⟩
        · exact Or.inr ⟨h2.1, k2⟩
    · intro hq
      rcases hown n rfl with k | ⟨k1, k2⟩
      · rw [k]; exact h3 hq
      · have := h.quiet hq n k1; omega
  | cmpC n a b =>
    obtain ⟨h1, h2, h3, h4⟩ := hp
    refine ⟨h1, h2, ?_, ?_⟩
    · rcases hown n rfl with k | ⟨k1, k2⟩
      · rw [k]; exact h3
      · rcases h3 with h3 | h3
        · exact Or.inr ⟨by omega, k2⟩
        · exact Or.inr ⟨h3.1, k2⟩
    · intro hq
      rcases hown n rfl with k | ⟨k1, k2⟩
      · rw [k]; exact h4 hq
      · have := h.quiet hq n k1; omega
  | cmpFoo n a =>
    obtain ⟨h1, h2, h3⟩ := hp
    rcases hown n rfl with k | ⟨k1, k2⟩
    · refine ⟨h1, by omega, fun ha => ?_⟩
      rw [k]
      exact Nat.lt_of_le_of_lt (h.le _) (h3 ha)
    · omega
  | cmpBar n a foo =>
    obtain ⟨h1, h2, h3, h4⟩ := hp
    rcases hown n rfl with k | ⟨k1, k2⟩
    · exact ⟨h1, by omega, by rw [k]; exact h3, fun ha => Nat.lt_of_le_of_lt (h.le _) (h4 ha)⟩
    · omega
  | cmpStore n a bar =>
    obtain ⟨h1, h2, h3, h4, h5⟩ := hp
    rcases hown n rfl with k | ⟨k1, k2⟩
    · rw [show PcOk E N q f' (.cmpStore n a bar) = (n < N ∧ f' n < n ∧ bar ≤ f' n ∧ (a ≠ n → bar < f' n) ∧ root f' bar = root f' n) from rfl, k]
      exact ⟨h1, h2, h3, h4, h.roots _ _ h5⟩
    · omega
  | cmpDone n =>
    obtain ⟨h1, h2⟩ := hp
    refine ⟨h1, fun hq => ?_⟩
    rcases hown n rfl with k | ⟨k1, k2⟩
    · rw [k]; exact h.quiet hq _ (h2 hq)
    · have := h.quiet hq n k1; omega

/-- Steps left to a task (`L` bounds the number of late links of a vertex). -/
def mu (N L : Nat) (f : Nat → Nat) : Pc → Nat
  | .idle => 0
  | .gate _ _ => 1 + (6 * N + 9) * L
  | .link1 _ _ => 6 * N + 8
  | .link2 _ _ _ => 6 * N + 7
  | .head _ _ p1 p2 => 6 * max p1 p2 + 5
  | .high _ _ h _ => 6 * h + 4
  | .cas _ _ h _ _ => 6 * h + 3
  | .next1 _ _ h _ _ => 6 * h + 2
  | .next2 _ _ h _ _ => 6 * h + 1
  | .cmpA n => 10 * f n + 6
  | .cmpB n a => 10 * f n + 5 + (if a = n ∧ f n < n then 10 else 0)
  | .cmpC n a _ => 10 * f n + 4 + (if a = n ∧ f n < n then 10 else 0)
  | .cmpFoo n a => 10 * f n + 3 + (if a = n ∧ f n < n then 10 else 0)
  | .cmpBar n a _ => 10 * f n + 2 + (if a = n ∧ f n < n then 10 else 0)
  | .cmpStore n a _ => 10 * f n + 1 + (if a = n ∧ f n < n then 10 else 0)
  | .cmpDone _ => 0

def tmu (N L : Nat) (f : Nat → Nat) (t : Task) : Nat := mu N L f t.pc + (6 * N + 9) * t.rest.length

theorem mu_change {N L : Nat} {f f' : Nat → Nat} {pc : Pc} (hown : ∀ n, pc.owns = some n → f' n = f n ∨ (f n = n ∧ f' n < n)) :
    mu N L f' pc ≤ mu N L f pc := by
  cases pc with
  | cmpA n => rcases hown n rfl with k | ⟨k1, k2⟩ <;> simp only [mu] <;> omega
  | cmpB n a | cmpC n a _ | cmpFoo n a | cmpBar n a _ | cmpStore n a _ =>
    rcases hown n rfl with k | ⟨k1, k2⟩
    · simp only [mu, k]; exact Nat.le_refl _
    · simp only [mu]
      split <;> split <;> omega
  | _ => exact Nat.le_refl _

/-- The invariant of a pool of tasks on `N` vertices. -/
structure CInv (E : Nat → Nat → Prop) (N : Nat) (q : Prop) (comp : List Nat) (ts : List Task) : Prop where
  len : comp.length = N
  le : ∀ x, par comp x ≤ x
  sound : ∀ x, Conn E x (par comp x)
  tasks : ∀ t ∈ ts, PcOk E N q (par comp) t.pc ∧ ∀ e ∈ t.rest, LinkOk E N e
  gates : ∀ t ∈ ts, ∀ u c, t.pc = .gate u c → t.rest = []
  owner : ∀ (i j : Nat) (t t' : Task) (n : Nat), ts[i]? = some t → ts[j]? = some t' → t.pc.owns = some n → t'.pc.owns = some n → i = j

/-- The late links are usable. -/
def LateOk (E : Nat → Nat → Prop) (N L : Nat) (late : Nat → Res (List (Nat × Nat))) : Prop :=
  ∀ u, u < N → ∃ r, late u = .ok r ∧ r.length ≤ L ∧ ∀ e ∈ r, LinkOk E N e

/-- The `link` call a task is executing. -/
def Pc.working : Pc → Option (Nat × Nat)
  | .link1 u v | .link2 u v _ | .head u v _ _ | .high u v _ _ | .cas u v _ _ _ | .next1 u v _ _ _ | .next2 u v _ _ _ => some (u, v)
  | _ => none

/-- The call `e` is done, being executed or still to be made. -/
def Duty (f : Nat → Nat) (t : Task) (e : Nat × Nat) : Prop := root f e.1 = root f e.2 ∨ e ∈ t.rest ∨ t.pc.working = some e

theorem sum_map_set_lt' {τ : Type} (w w' : τ → Nat) {ts : List τ} {i : Nat} {t t' : τ} (h : ts[i]? = some t) (hw : w' t' < w t)
    (ho : ∀ j x, j ≠ i → ts[j]? = some x → w' x ≤ w x) : ((ts.set i t').map w').sum < (ts.map w).sum := by
  induction ts generalizing i with
  | nil => simp at h
  | cons x xs ih =>
    have hall : ∀ ys : List τ, (∀ (j : Nat) (y : τ), ys[j]? = some y → w' y ≤ w y) → (ys.map w').sum ≤ (ys.map w).sum := by
      intro ys
      induction ys with
      | nil => intro _; exact Nat.le_refl _
      | cons y ys ih2 =>
        intro hy
        have a := hy 0 y rfl
        have b := ih2 fun j z hz => hy (j + 1) z hz
        simp only [List.map_cons, List.sum_cons]
        omega
    cases i with
    | zero =>
      simp at h; subst h
      have := hall xs fun j y hy => ho (j + 1) y (by omega) hy
      simp only [List.set_cons_zero, List.map_cons, List.sum_cons]
      omega
    | succ i =>
      simp at h
      have a := ho 0 x (by omega) rfl
      have b := ih h fun j y hj hy => ho (j + 1) y (by omega) hy
      simp only [List.set_cons_succ, List.map_cons, List.sum_cons]
      omega

theorem min_eq {B p1 p2 : Nat} (h1 : p1 < B) (h2 : p2 < B) (hne : p1 ≠ p2) :
    (p1 + (p2 + B - max p1 p2) % B) % B = min p1 p2 := by
  rcases Nat.lt_or_ge p1 p2 with c | c
  · rw [Nat.max_eq_right (by omega), Nat.min_eq_left (by omega), Nat.add_sub_cancel_left, Nat.mod_self, Nat.add_zero, Nat.mod_eq_of_lt h1]
  · rw [Nat.max_eq_left (by omega), Nat.min_eq_right (by omega), Nat.mod_eq_of_lt (show p2 + B - p1 < B by omega),
      show p1 + (p2 + B - p1) = p2 + B by omega, Nat.add_mod_right, Nat.mod_eq_of_lt h2]

/-- One step of a task. -/
theorem task_ok {E : Nat → Nat → Prop} {N L B : Nat} {q : Prop} {late : Nat → Res (List (Nat × Nat))} (hB : N ≤ B) (hlate : LateOk E N L late)
    {comp : List Nat} {ts : List Task} (h : CInv E N q comp ts) {i : Nat} {t : Task} (hi : ts[i]? = some t) (hf : t.finished = false) :
    ∃ comp' t', taskStep B late comp t = .ok (comp', t') ∧ CInv E N q comp' (ts.set i t') ∧
      (∀ x y, root (par comp) x = root (par comp) y → root (par comp') x = root (par comp') y) ∧
      (t'.pc.owns = t.pc.owns) ∧
      (∀ e, Duty (par comp) t e → Duty (par comp') t' e) ∧
      (∀ u c, t.pc = .gate u c → (root (par comp) u = root (par comp) c) ∨ ∃ r, late u = .ok r ∧ t'.rest = r) ∧
      ((ts.set i t').map (tmu N L (par comp'))).sum < (ts.map (tmu N L (par comp))).sum := by
  obtain ⟨hpc, hrest⟩ := h.tasks t (List.mem_of_getElem? hi)
  have gates' : ∀ t' : Task, (∀ u c, t'.pc = .gate u c → t'.rest = []) → ∀ x ∈ ts.set i t', ∀ u c, x.pc = .gate u c → x.rest = [] := by
    intro t' ht' x hx
    rcases List.mem_or_eq_of_mem_set hx with hx | rfl
    · exact h.gates x hx
    · exact ht'
  -- a step that leaves the pointers alone
  have still : ∀ t' : Task, PcOk E N q (par comp) t'.pc → (∀ e ∈ t'.rest, LinkOk E N e) → t'.pc.owns = t.pc.owns →
      (∀ e, Duty (par comp) t e → Duty (par comp) t' e) → ((∀ u c, t.pc ≠ .gate u c) ∧ ∀ u c, t'.pc ≠ .gate u c) → tmu N L (par comp) t' < tmu N L (par comp) t →
      CInv E N q comp (ts.set i t') ∧
      (∀ x y, root (par comp) x = root (par comp) y → root (par comp) x = root (par comp) y) ∧
      (t'.pc.owns = t.pc.owns) ∧
      (∀ e, Duty (par comp) t e → Duty (par comp) t' e) ∧
      (∀ u c, t.pc = .gate u c → (root (par comp) u = root (par comp) c) ∨ ∃ r, late u = .ok r ∧ t'.rest = r) ∧
      ((ts.set i t').map (tmu N L (par comp))).sum < (ts.map (tmu N L (par comp))).sum := by
    intro t' k1 k2 k3 k4 k5 k6
    refine ⟨⟨h.len, h.le, h.sound, ?_, gates' t' (fun u c e => absurd e (k5.2 u c)), ?_⟩, fun _ _ h => h, k3, k4, fun u c hg => absurd hg (k5.1 u c), sum_map_set_lt _ hi k6⟩
    · intro x hx
      rcases List.mem_or_eq_of_mem_set hx with hx | rfl
      · exact h.tasks x hx
      · exact ⟨k1, k2⟩
    · intro a b x y n hx hy ox oy
      rcases getElem?_set_cases hx with ⟨ex, ex'⟩ | ⟨_, hx'⟩
      · rcases getElem?_set_cases hy with ⟨ey, ey'⟩ | ⟨_, hy'⟩
        · omega
        · subst ex ex'; exact h.owner _ _ _ _ n hi hy' (by rw [← k3]; exact ox) oy
      · rcases getElem?_set_cases hy with ⟨ey, ey'⟩ | ⟨_, hy'⟩
        · subst ey ey'; exact h.owner _ _ _ _ n hx' hi ox (by rw [← k3]; exact oy)
        · exact h.owner _ _ _ _ n hx' hy' ox oy
  -- a step that writes `b` to `n`
  have write : ∀ (n b : Nat) (t' : Task), n < N → b ≤ par comp n → Conn E n b → Change q (par comp) (par (comp.set n b)) →
      (∀ j x m, j ≠ i → ts[j]? = some x → x.pc.owns = some m → par (comp.set n b) m = par comp m ∨ (par comp m = m ∧ par (comp.set n b) m < m)) →
      PcOk E N q (par (comp.set n b)) t'.pc → (∀ e ∈ t'.rest, LinkOk E N e) → t'.pc.owns = t.pc.owns →
      (∀ e, Duty (par comp) t e → Duty (par (comp.set n b)) t' e) → ((∀ u c, t.pc ≠ .gate u c) ∧ ∀ u c, t'.pc ≠ .gate u c) →
      tmu N L (par (comp.set n b)) t' < tmu N L (par comp) t →
      CInv E N q (comp.set n b) (ts.set i t') ∧
      (∀ x y, root (par comp) x = root (par comp) y → root (par (comp.set n b)) x = root (par (comp.set n b)) y) ∧
      (t'.pc.owns = t.pc.owns) ∧
      (∀ e, Duty (par comp) t e → Duty (par (comp.set n b)) t' e) ∧
      (∀ u c, t.pc = .gate u c → (root (par comp) u = root (par comp) c) ∨ ∃ r, late u = .ok r ∧ t'.rest = r) ∧
      ((ts.set i t').map (tmu N L (par (comp.set n b)))).sum < (ts.map (tmu N L (par comp))).sum := by
    intro n b t' hn hb hcon hch hown k1 k2 k3 k4 k5 k6
    have hset := fun x => par_set (b := b) h.len hn x
    refine ⟨⟨by simp [h.len], ?_, ?_, ?_, gates' t' (fun u c e => absurd e (k5.2 u c)), ?_⟩, hch.roots, k3, k4, fun u c hg => absurd hg (k5.1 u c), ?_⟩
    · intro x; exact Nat.le_trans (hch.le x) (h.le x)
    · intro x
      rw [hset x]; split
      · next e => subst e; exact hcon
      · exact h.sound x
    · intro x hx
      obtain ⟨j, hj⟩ := List.getElem?_of_mem hx
      rcases getElem?_set_cases hj with ⟨rfl, rfl⟩ | ⟨hne, hj⟩
      · exact ⟨k1, k2⟩
      · obtain ⟨m1, m2⟩ := h.tasks x (List.mem_of_getElem? hj)
        exact ⟨m1.change hch fun m hm => hown j x m (fun e => hne e.symm) hj hm, m2⟩
    · intro a b x y n hx hy ox oy
      rcases getElem?_set_cases hx with ⟨ex, ex'⟩ | ⟨_, hx'⟩
      · rcases getElem?_set_cases hy with ⟨ey, ey'⟩ | ⟨_, hy'⟩
        · omega
        · subst ex ex'; exact h.owner _ _ _ _ n hi hy' (by rw [← k3]; exact ox) oy
      · rcases getElem?_set_cases hy with ⟨ey, ey'⟩ | ⟨_, hy'⟩
        · subst ey ey'; exact h.owner _ _ _ _ n hx' hi ox (by rw [← k3]; exact oy)
        · exact h.owner _ _ _ _ n hx' hy' ox oy
    · refine sum_map_set_lt' _ _ hi k6 fun j x hj hx => ?_
      have := mu_change (N := N) (L := L) (pc := x.pc) fun m hm => hown j x m hj hx hm
      unfold tmu; omega
  obtain ⟨pc, rest⟩ := t
  simp only at hpc hrest
  have hle := h.le
  have hget : ∀ {x}, x < N → vget comp x = .ok (par comp x) := fun hx => par_get h.len hx
  have hltN : ∀ {x}, x < N → par comp x < N := fun hx => Nat.lt_of_le_of_lt (h.le _) hx
  have dutyWork : ∀ {pc' : Pc} {rest' : List (Nat × Nat)}, pc'.working = pc.working → rest' = rest →
      ∀ e, Duty (par comp) ⟨pc, rest⟩ e → Duty (par comp) ⟨pc', rest'⟩ e := by
    intro pc' rest' h1 h2 e he
    subst h2
    rcases he with he | he | he
    · exact Or.inl he
    · exact Or.inr (Or.inl he)
    · exact Or.inr (Or.inr (by simp only at he ⊢; rw [h1]; exact he))
  have dutyDone : ∀ {pc' : Pc} {u v : Nat}, pc.working = some (u, v) → root (par comp) u = root (par comp) v →
      ∀ e, Duty (par comp) ⟨pc, rest⟩ e → Duty (par comp) ⟨pc', rest⟩ e := by
    intro pc' u v h1 h2 e he
    rcases he with he | he | he
    · exact Or.inl he
    · exact Or.inr (Or.inl he)
    · simp only [h1, Option.some.injEq] at he
      subst he
      exact Or.inl h2
  cases pc with
  | idle =>
    cases rest with
    | nil => cases hf
    | cons e r =>
      obtain ⟨u, v⟩ := e
      refine ⟨comp, ⟨.link1 u v, r⟩, rfl, still _ ⟨hrest (u, v) (by simp), hpc⟩ (fun e he => hrest e (by simp [he])) rfl ?_ (by simp) ?_⟩
      · intro e he
        rcases he with he | he | he
        · exact Or.inl he
        · rcases List.mem_cons.1 he with rfl | he
          · exact Or.inr (Or.inr rfl)
          · exact Or.inr (Or.inl he)
        · cases he
      · simp only [tmu, mu, List.length_cons, Nat.mul_add, Nat.mul_one]; omega
  | gate u c =>
    obtain ⟨hu, hq⟩ := hpc
    obtain ⟨r, hr, hrl, hrok⟩ := hlate u hu
    have key : ∀ t' : Task, t'.pc = .idle → (∀ e ∈ t'.rest, LinkOk E N e) → t'.rest.length ≤ L →
        (∀ e, Duty (par comp) ⟨.gate u c, rest⟩ e → Duty (par comp) t' e) →
        (root (par comp) u = root (par comp) c ∨ t'.rest = r) → 
        CInv E N q comp (ts.set i t') ∧
        (∀ x y, root (par comp) x = root (par comp) y → root (par comp) x = root (par comp) y) ∧
        (t'.pc.owns = Pc.owns (.gate u c)) ∧
        (∀ e, Duty (par comp) ⟨.gate u c, rest⟩ e → Duty (par comp) t' e) ∧
        (∀ u' c', Pc.gate u c = .gate u' c' → (root (par comp) u' = root (par comp) c') ∨ ∃ r, late u' = .ok r ∧ t'.rest = r) ∧
        ((ts.set i t').map (tmu N L (par comp))).sum < (ts.map (tmu N L (par comp))).sum := by
      intro t' e1 e2 e3 e4 e5
      refine ⟨⟨h.len, h.le, h.sound, ?_, gates' t' (fun u c e => by rw [e1] at e; cases e), ?_⟩, fun _ _ h => h, by rw [e1]; rfl, e4, ?_, sum_map_set_lt _ hi ?_⟩
      · intro x hx
        rcases List.mem_or_eq_of_mem_set hx with hx | rfl
        · exact h.tasks x hx
        · exact ⟨by rw [e1]; exact hq, e2⟩
      · intro a b x y n hx hy ox oy
        rcases getElem?_set_cases hx with ⟨rfl, rfl⟩ | ⟨_, hx⟩
        · rw [e1] at ox; cases ox
        · rcases getElem?_set_cases hy with ⟨rfl, rfl⟩ | ⟨_, hy⟩
          · rw [e1] at oy; cases oy
          · exact h.owner _ _ _ _ n hx hy ox oy
      · intro u' c' he
        cases he
        rcases e5 with e5 | e5
        · exact Or.inl e5
        · exact Or.inr ⟨r, hr, e5⟩
      · simp only [tmu, mu, e1]
        have := Nat.mul_le_mul_left (6 * N + 9) e3
        omega
    have hrest0 : rest = [] := h.gates _ (List.mem_of_getElem? hi) u c rfl
    have hd : ∀ t' : Task, ∀ e, Duty (par comp) ⟨.gate u c, rest⟩ e → Duty (par comp) t' e := by
      intro t' e he
      rcases he with he | he | he
      · exact Or.inl he
      · rw [hrest0] at he; cases he
      · cases he
    by_cases cc : par comp u = c
    · refine ⟨comp, ⟨.idle, []⟩, ?_, ?_⟩
      · simp only [taskStep]; rw [hget hu, res_bind_ok, if_pos cc]; rfl
      · refine key _ rfl (by simp) (Nat.zero_le _) (hd _) (Or.inl ?_)
        rw [← cc, root_step hle]
    · refine ⟨comp, ⟨.idle, r⟩, ?_, ?_⟩
      · simp only [taskStep]; rw [hget hu, res_bind_ok, if_neg cc, hr, res_bind_ok]; rfl
      · exact key _ rfl hrok hrl (hd _) (Or.inr rfl)
  | link1 u v =>
    obtain ⟨hl, hq⟩ := hpc
    refine ⟨comp, ⟨.link2 u v (par comp u), rest⟩, ?_, still _ ⟨hl, hq, hltN hl.1, root_step hle u⟩ hrest rfl (dutyWork rfl rfl) (by simp) ?_⟩
    · simp only [taskStep]; rw [hget hl.1, res_bind_ok]; rfl
    · simp only [tmu, mu]; omega
  | link2 u v p1 =>
    obtain ⟨hl, hq, hp, hr⟩ := hpc
    refine ⟨comp, ⟨.head u v p1 (par comp v), rest⟩, ?_, still _ ⟨hl, hq, hp, hltN hl.2.1, Or.inl ⟨hr, root_step hle v⟩⟩ hrest rfl (dutyWork rfl rfl) (by simp) ?_⟩
    · simp only [taskStep]; rw [hget hl.2.1, res_bind_ok]; rfl
    · simp only [tmu, mu]
      have : par comp v < N := hltN hl.2.1
      have : max p1 (par comp v) < N := by omega
      omega
  | head u v p1 p2 =>
    obtain ⟨hl, hq, hp1, hp2, hpair⟩ := hpc
    by_cases c : p1 = p2
    · refine ⟨comp, ⟨.idle, rest⟩, ?_, still _ hq hrest rfl (dutyDone (u := u) (v := v) rfl ?_) (by simp) ?_⟩
      · simp only [taskStep]; rw [if_pos c]; rfl
      · subst c
        rcases hpair with ⟨a, b⟩ | ⟨a, b⟩
        · rw [← a, ← b]
        · rw [← a, ← b]
      · simp only [tmu, mu]; omega
    · refine ⟨comp, ⟨.high u v (max p1 p2) (min p1 p2), rest⟩, ?_, still _ ⟨hl, hq, by omega, by omega, ?_⟩ hrest rfl (dutyWork rfl rfl) (by simp) ?_⟩
      · simp only [taskStep]; rw [if_neg c, min_eq (by omega) (by omega) c]; rfl
      · rcases Nat.lt_or_ge p1 p2 with cc | cc
        · rw [Nat.max_eq_right (by omega), Nat.min_eq_left (by omega)]
          rcases hpair with ⟨a, b⟩ | ⟨a, b⟩
          · exact Or.inr ⟨b, a⟩
          · exact Or.inl ⟨b, a⟩
        · rw [Nat.max_eq_left (by omega), Nat.min_eq_right (by omega)]
          exact hpair
      · simp only [tmu, mu]; omega
  | high u v a b =>
    obtain ⟨hl, hq, hlt, ha, hpair⟩ := hpc
    refine ⟨comp, ⟨.cas u v a b (par comp a), rest⟩, ?_, still _ ⟨hl, hq, hlt, ha, hpair, hle a, root_step hle a⟩ hrest rfl (dutyWork rfl rfl) (by simp) ?_⟩
    · simp only [taskStep]; rw [hget ha, res_bind_ok]; rfl
    · simp only [tmu, mu]; omega
  | cas u v a b ph =>
    obtain ⟨hl, hq, hlt, ha, hpair, hph, hroot⟩ := hpc
    by_cases c1 : ph = b
    · refine ⟨comp, ⟨.idle, rest⟩, ?_, still _ hq hrest rfl (dutyDone (u := u) (v := v) rfl ?_) (by simp) ?_⟩
      · simp only [taskStep]; rw [if_pos c1]; rfl
      · subst c1
        rcases hpair with ⟨k1, k2⟩ | ⟨k1, k2⟩
        · rw [← k1, ← k2, hroot]
        · rw [← k1, ← k2, hroot]
      · simp only [tmu, mu]; omega
    · have hpair' : Pair (par comp) u v ph b := by
        rcases hpair with ⟨k1, k2⟩ | ⟨k1, k2⟩
        · exact Or.inl ⟨hroot.trans k1, k2⟩
        · exact Or.inr ⟨hroot.trans k1, k2⟩
      by_cases c2 : ph = a
      · by_cases c3 : par comp a = a
        · have hset := fun x => par_set (b := b) h.len ha x
          have hlink := root_link hle c3 hlt hset
          have hb : root (par comp) b ≠ a := by
            have := root_le (par comp) b
            omega
          have hroots : ∀ x y, root (par comp) x = root (par comp) y → root (par (comp.set a b)) x = root (par (comp.set a b)) y := by
            intro x y hxy
            rw [hlink, hlink, hxy]
          have hmerged : root (par (comp.set a b)) a = root (par (comp.set a b)) b := by
            rw [hlink, hlink, root_of_fix c3, if_pos rfl, if_neg hb]
          have huv : root (par (comp.set a b)) u = root (par (comp.set a b)) v := by
            rcases hpair with ⟨k1, k2⟩ | ⟨k1, k2⟩
            · rw [← hroots _ _ k1, ← hroots _ _ k2, hmerged]
            · rw [← hroots _ _ k1, ← hroots _ _ k2, hmerged]
          refine ⟨comp.set a b, ⟨.idle, rest⟩, ?_, write a b _ ha (by omega) ?_ ⟨?_, hroots, fun q' => absurd q' hq⟩ ?_ hq hrest rfl ?_ (by simp) ?_⟩
          · simp only [taskStep]
            rw [if_neg c1, if_pos c2, hget ha, res_bind_ok, if_pos c3, vset_of_lt (by rw [h.len]; exact ha), res_bind_ok]; rfl
          · have hcr := fun x => conn_root h.sound x
            have key : ∀ {x y}, root (par comp) x = root (par comp) y → Conn E x y := by
              intro x y hxy
              exact (hcr x).trans (hxy ▸ (hcr y).symm)
            rcases hpair with ⟨k1, k2⟩ | ⟨k1, k2⟩
            · exact ((key k1).trans hl.2.2).trans (key k2).symm
            · exact ((key k1).trans hl.2.2.symm).trans (key k2).symm
          · intro x
            rw [hset x]; split
            · next e => subst e; omega
            · exact Nat.le_refl _
          · intro j x m _ _ _
            by_cases e : m = a
            · subst e
              right
              exact ⟨c3, by rw [hset, if_pos rfl]; exact hlt⟩
            · left; rw [hset, if_neg e]
          · intro e he
            rcases he with he | he | he
            · exact Or.inl (hroots _ _ he)
            · exact Or.inr (Or.inl he)
            · simp only [Pc.working, Option.some.injEq] at he
              subst he
              exact Or.inl huv
          · simp only [tmu, mu]; omega
        · refine ⟨comp, ⟨.next1 u v a b ph, rest⟩, ?_, still _ ⟨hl, hq, hlt, ha, hph, hpair', ?_⟩ hrest rfl (dutyWork rfl rfl) (by simp) ?_⟩
          · simp only [taskStep]
            rw [if_neg c1, if_pos c2, hget ha, res_bind_ok, if_neg c3]; rfl
          · subst c2; have := hle ph; omega
          · simp only [tmu, mu]; omega
      · refine ⟨comp, ⟨.next1 u v a b ph, rest⟩, ?_, still _ ⟨hl, hq, hlt, ha, hph, hpair', ?_⟩ hrest rfl (dutyWork rfl rfl) (by simp) ?_⟩
        · simp only [taskStep]
          rw [if_neg c1, if_neg c2]; rfl
        · have := hle ph; omega
        · simp only [tmu, mu]; omega
  | next1 u v a b ph =>
    obtain ⟨hl, hq, hlt, ha, hph, hpair, hfp⟩ := hpc
    refine ⟨comp, ⟨.next2 u v a b (par comp ph), rest⟩, ?_, still _ ⟨hl, hq, hlt, ha, hfp, ?_⟩ hrest rfl (dutyWork rfl rfl) (by simp) ?_⟩
    · simp only [taskStep]; rw [hget (by omega), res_bind_ok]; rfl
    · unfold Pair; rw [root_step hle]; exact hpair
    · simp only [tmu, mu]; omega
  | next2 u v a b p1 =>
    obtain ⟨hl, hq, hlt, ha, hp1, hpair⟩ := hpc
    refine ⟨comp, ⟨.head u v p1 (par comp b), rest⟩, ?_, still _ ⟨hl, hq, by omega, hltN (by omega), ?_⟩ hrest rfl (dutyWork rfl rfl) (by simp) ?_⟩
    · simp only [taskStep]; rw [hget (by omega), res_bind_ok]; rfl
    · unfold Pair; rw [root_step hle]; exact hpair
    · have := hle b
      simp only [tmu, mu]; omega
  | cmpA n =>
    refine ⟨comp, ⟨.cmpB n (par comp n), rest⟩, ?_, still _ ⟨hpc, Or.inl rfl, fun _ => rfl⟩ hrest rfl (dutyWork rfl rfl) (by simp) ?_⟩
    · simp only [taskStep]; rw [hget hpc, res_bind_ok]; rfl
    · simp only [tmu, mu]; split <;> omega
  | cmpB n a =>
    obtain ⟨hn, h2, h3⟩ := hpc
    refine ⟨comp, ⟨.cmpC n a (par comp n), rest⟩, ?_, still _ ⟨hn, ?_, Or.inl rfl, fun hq => ⟨h3 hq, rfl⟩⟩ hrest rfl (dutyWork rfl rfl) (by simp) ?_⟩
    · simp only [taskStep]; rw [hget hn, res_bind_ok]; rfl
    · rcases h2 with h2 | h2
      · exact Or.inl h2
      · exact Or.inr h2.1
    · simp only [tmu, mu]; split <;> omega
  | cmpC n a b =>
    obtain ⟨hn, h2, h3, h4⟩ := hpc
    have hb : b < N := by
      have := hle n
      rcases h3 with h3 | h3 <;> omega
    by_cases c : a ≠ par comp b
    · refine ⟨comp, ⟨.cmpFoo n a, rest⟩, ?_, still _ ⟨hn, ?_, ?_⟩ hrest rfl (dutyWork rfl rfl) (by simp) ?_⟩
      · simp only [taskStep]; rw [hget hb, res_bind_ok, if_pos c]; rfl
      · rcases h3 with h3 | h3
        · rcases Nat.lt_or_ge (par comp n) n with k | k
          · exact k
          · exfalso
            have hbn : b = n := by have := hle n; omega
            subst hbn
            rcases h2 with rfl | rfl <;> exact c h3
        · exact h3.2
      · intro han
        rcases h2 with h2 | h2
        · rcases h3 with h3 | h3
          · rw [← h3]; have := hle b; omega
          · omega
        · exact absurd h2 han
      · simp only [tmu, mu]; split <;> omega
    · refine ⟨comp, ⟨.cmpDone n, rest⟩, ?_, still _ ⟨hn, ?_⟩ hrest rfl (dutyWork rfl rfl) (by simp) ?_⟩
      · simp only [taskStep]; rw [hget hb, res_bind_ok, if_neg c]; rfl
      · intro hq
        obtain ⟨e1, e2⟩ := h4 hq
        have : a = par comp b := by omega
        rw [← e2, ← this, e1, e2]
      · simp only [tmu, mu]; split <;> omega
  | cmpFoo n a =>
    obtain ⟨hn, h2, h3⟩ := hpc
    refine ⟨comp, ⟨.cmpBar n a (par comp n), rest⟩, ?_, still _ ⟨hn, h2, rfl, h3⟩ hrest rfl (dutyWork rfl rfl) (by simp) ?_⟩
    · simp only [taskStep]; rw [hget hn, res_bind_ok]; rfl
    · simp only [tmu, mu]; split <;> omega
  | cmpBar n a foo =>
    obtain ⟨hn, h2, h3, h4⟩ := hpc
    refine ⟨comp, ⟨.cmpStore n a (par comp foo), rest⟩, ?_, still _ ⟨hn, h2, ?_, ?_, ?_⟩ hrest rfl (dutyWork rfl rfl) (by simp) ?_⟩
    · simp only [taskStep]; rw [hget (by omega), res_bind_ok]; rfl
    · rw [h3]; exact hle _
    · intro han; have := h4 han; omega
    · rw [root_step hle, h3, root_step hle]
    · simp only [tmu, mu]; split <;> omega
  | cmpStore n a bar =>
    obtain ⟨hn, h2, h3, h4, h5⟩ := hpc
    have hset := fun x => par_set (b := bar) h.len hn x
    have hred := root_redirect hle h2 (by omega) h5 hset
    refine ⟨comp.set n bar, ⟨.cmpA n, rest⟩, ?_, write n bar _ hn h3 ?_ ⟨?_, ?_, ?_⟩ ?_ hn hrest rfl ?_ (by simp) ?_⟩
    · simp only [taskStep]; rw [vset_of_lt (by rw [h.len]; exact hn), res_bind_ok]; rfl
    · have hcr := fun x => conn_root h.sound x
      exact (hcr n).trans (h5 ▸ (hcr bar).symm)
    · intro x
      rw [hset x]; split
      · next e => subst e; exact h3
      · exact Nat.le_refl _
    · intro x y hxy; rw [hred, hred]; exact hxy
    · intro _ x hx
      rw [hset, if_neg (by rintro rfl; omega)]; exact hx
    · intro j x m hj hx hm
      left
      rw [hset, if_neg]
      rintro rfl
      exact hj (h.owner _ _ _ _ _ hx hi hm rfl)
    · intro e he
      rcases he with he | he | he
      · exact Or.inl (by rw [hred, hred]; exact he)
      · exact Or.inr (Or.inl he)
      · cases he
    · simp only [tmu, mu]
      rw [hset, if_pos rfl]
      by_cases ha : a = n
      · rw [if_pos ⟨ha, h2⟩]; omega
      · have := h4 ha
        split <;> omega
  | cmpDone n => cases hf

end NW.Cc

namespace NW.Cc
open Spec Forest

/-- The state of a pool that was started with the tasks `ts0` on `comp0`. -/
structure PInv (E : Nat → Nat → Prop) (N : Nat) (q : Prop) (late : Nat → Res (List (Nat × Nat))) (comp0 : List Nat) (ts0 : List Task)
    (comp : List Nat) (ts : List Task) : Prop where
  inv : CInv E N q comp ts
  count : ts.length = ts0.length
  mono : ∀ x y, root (par comp0) x = root (par comp0) y → root (par comp) x = root (par comp) y
  same : ∀ (i : Nat) (t0 t : Task), ts0[i]? = some t0 → ts[i]? = some t →
    t.pc.owns = t0.pc.owns ∧ (∀ e ∈ t0.rest, Duty (par comp) t e) ∧
    (∀ u c, t0.pc = .gate u c → t.pc = .gate u c ∨ root (par comp) u = root (par comp) c ∨
      ∃ r, late u = .ok r ∧ ∀ e ∈ r, Duty (par comp) t e)

/-- How a task may be started. -/
def Fresh (t : Task) : Prop := (t.pc = .idle) ∨ (∃ u c, t = ⟨.gate u c, []⟩) ∨ ∃ n, t = compressor n

theorem PInv.init {E : Nat → Nat → Prop} {N : Nat} {q : Prop} {late : Nat → Res (List (Nat × Nat))} {comp : List Nat} {ts : List Task}
    (h : CInv E N q comp ts) : PInv E N q late comp ts comp ts := by
  refine ⟨h, rfl, fun _ _ h => h, fun i t0 t h0 h1 => ?_⟩
  rw [h0] at h1
  cases h1
  exact ⟨rfl, fun e he => Or.inr (Or.inl he), fun u c hc => Or.inl hc⟩

theorem PInv.step {E : Nat → Nat → Prop} {N L B : Nat} {q : Prop} {late : Nat → Res (List (Nat × Nat))} (hB : N ≤ B) (hlate : LateOk E N L late)
    {comp0 : List Nat} {ts0 : List Task} {comp : List Nat} {ts : List Task} (h : PInv E N q late comp0 ts0 comp ts) {i : Nat} {t : Task}
    (hi : ts[i]? = some t) (hf : t.finished = false) :
    ∃ comp' t', taskStep B late comp t = .ok (comp', t') ∧ PInv E N q late comp0 ts0 comp' (ts.set i t') ∧
      ((ts.set i t').map (tmu N L (par comp'))).sum < (ts.map (tmu N L (par comp))).sum := by
  obtain ⟨comp', t', h1, h2, h3, h4, h5, h6, h7⟩ := task_ok hB hlate h.inv hi hf
  refine ⟨comp', t', h1, ⟨h2, by rw [List.length_set]; exact h.count, fun x y hxy => h3 _ _ (h.mono _ _ hxy), ?_⟩, h7⟩
  intro j t0 x h0 hx
  have dutyOther : ∀ (y : Task) e, Duty (par comp) y e → Duty (par comp') y e := by
    intro y e he
    rcases he with he | he
    · exact Or.inl (h3 _ _ he)
    · exact Or.inr he
  rcases getElem?_set_cases hx with ⟨rfl, rfl⟩ | ⟨_, hx'⟩
  · obtain ⟨k1, k2, k3⟩ := h.same i t0 t h0 hi
    refine ⟨h4.trans k1, fun e he => h5 e (k2 e he), fun u c hc => ?_⟩
    rcases k3 u c hc with m | m | ⟨r, m1, m2⟩
    · rcases h6 u c m with n | ⟨r, n1, n2⟩
      · exact Or.inr (Or.inl (h3 _ _ n))
      · exact Or.inr (Or.inr ⟨r, n1, fun e he => Or.inr (Or.inl (by rw [n2]; exact he))⟩)
    · exact Or.inr (Or.inl (h3 _ _ m))
    · exact Or.inr (Or.inr ⟨r, m1, fun e he => h5 e (m2 e he)⟩)
  · obtain ⟨k1, k2, k3⟩ := h.same j t0 x h0 hx'
    refine ⟨k1, fun e he => dutyOther _ e (k2 e he), fun u c hc => ?_⟩
    rcases k3 u c hc with m | m | ⟨r, m1, m2⟩
    · exact Or.inl m
    · exact Or.inr (Or.inl (h3 _ _ m))
    · exact Or.inr (Or.inr ⟨r, m1, fun e he => dutyOther _ e (m2 e he)⟩)

/-- What holds once all tasks have ended. -/
theorem PInv.ended {E : Nat → Nat → Prop} {N : Nat} {q : Prop} {late : Nat → Res (List (Nat × Nat))} {comp0 : List Nat} {ts0 : List Task}
    {comp : List Nat} {ts : List Task} (h : PInv E N q late comp0 ts0 comp ts) (hfresh : ∀ t ∈ ts0, Fresh t) (hf : ∀ t ∈ ts, t.finished = true) :
    (∀ t0 ∈ ts0, ∀ e ∈ t0.rest, root (par comp) e.1 = root (par comp) e.2) ∧
    (∀ t0 ∈ ts0, ∀ u c, t0.pc = .gate u c → root (par comp) u = root (par comp) c ∨
      ∃ r, late u = .ok r ∧ ∀ e ∈ r, root (par comp) e.1 = root (par comp) e.2) ∧
    (q → ∀ t0 ∈ ts0, ∀ n, t0.pc.owns = some n → par comp (par comp n) = par comp n) := by
  have find : ∀ t0 ∈ ts0, ∃ t, t ∈ ts ∧ t.pc.owns = t0.pc.owns ∧ (∀ e ∈ t0.rest, Duty (par comp) t e) ∧
    (∀ u c, t0.pc = .gate u c → t.pc = .gate u c ∨ root (par comp) u = root (par comp) c ∨
      ∃ r, late u = .ok r ∧ ∀ e ∈ r, Duty (par comp) t e) := by
    intro t0 h0
    obtain ⟨i, hi⟩ := List.getElem?_of_mem h0
    have hlt : i < ts.length := by rw [h.count]; exact (List.getElem?_eq_some_iff.1 hi).1
    have hts : ts[i]? = some ts[i] := List.getElem?_eq_getElem hlt
    exact ⟨_, List.mem_of_getElem? hts, h.same i t0 _ hi hts⟩
  have dutyEnd : ∀ t : Task, t.finished = true → t.pc.owns = none → ∀ e, Duty (par comp) t e → root (par comp) e.1 = root (par comp) e.2 := by
    intro t ht ho e he
    obtain ⟨pc, rest⟩ := t
    cases pc with
    | idle =>
      cases rest with
      | nil =>
        rcases he with he | he | he
        · exact he
        · cases he
        · cases he
      | cons _ _ => cases ht
    | cmpDone => cases ho
    | _ => cases ht
  refine ⟨?_, ?_, ?_⟩
  · intro t0 h0 e he
    obtain ⟨t, k1, k2, k3, -⟩ := find t0 h0
    refine dutyEnd t (hf t k1) ?_ e (k3 e he)
    rw [k2]
    rcases hfresh t0 h0 with m | ⟨u, c, rfl⟩ | ⟨n, rfl⟩
    · rw [m]; rfl
    · rfl
    · cases he
  · intro t0 h0 u c hc
    obtain ⟨t, k1, k2, -, k4⟩ := find t0 h0
    have hown : t.pc.owns = none := by rw [k2, hc]; rfl
    rcases k4 u c hc with m | m | ⟨r, m1, m2⟩
    · have := hf t k1
      simp [Task.finished, m] at this
    · exact Or.inl m
    · exact Or.inr ⟨r, m1, fun e he => dutyEnd t (hf t k1) hown e (m2 e he)⟩
  · intro hq t0 h0 n hn
    obtain ⟨t, k1, k2, -⟩ := find t0 h0
    have ho := k2.trans hn
    have hfin := hf t k1
    have hok := (h.inv.tasks t k1).1
    obtain ⟨pc, rest⟩ := t
    cases pc with
    | cmpDone m =>
      cases ho
      exact hok.2 hq
    | idle => cases ho
    | _ => cases hfin

/-- The pointers, once no task runs. -/
structure Base (E : Nat → Nat → Prop) (N : Nat) (comp : List Nat) : Prop where
  len : comp.length = N
  le : ∀ x, par comp x ≤ x
  sound : ∀ x, Conn E x (par comp x)

theorem CInv.base {E : Nat → Nat → Prop} {N : Nat} {q : Prop} {comp : List Nat} {ts : List Task} (h : CInv E N q comp ts) : Base E N comp :=
  ⟨h.len, h.le, h.sound⟩

theorem base_init (E : Nat → Nat → Prop) (N : Nat) : Base E N (List.range N) := by
  have hp : ∀ x, par (List.range N) x = x := by
    intro x
    rw [par, List.getD_eq_getElem?_getD]
    rcases Nat.lt_or_ge x N with c | c
    · rw [List.getElem?_range c]; rfl
    · rw [List.getElem?_eq_none (by simpa using c)]; rfl
  exact ⟨by simp, fun x => by rw [hp]; exact Nat.le_refl _, fun x => by rw [hp]; exact .refl _⟩

/-- Starting tasks that own different vertices. -/
theorem Base.start {E : Nat → Nat → Prop} {N : Nat} {q : Prop} {comp : List Nat} (h : Base E N comp) {ts : List Task} (hfresh : ∀ t ∈ ts, Fresh t)
    (hrest : ∀ t ∈ ts, ∀ e ∈ t.rest, LinkOk E N e) (hgate : ∀ t ∈ ts, ∀ u c, t.pc = .gate u c → u < N)
    (hown : ∀ t ∈ ts, ∀ n, t.pc.owns = some n → n < N) (hq : q → ∀ t ∈ ts, ∃ n, t.pc.owns = some n)
    (huniq : ∀ (i j : Nat) (t t' : Task) (n : Nat), ts[i]? = some t → ts[j]? = some t' → t.pc.owns = some n → t'.pc.owns = some n → i = j) :
    CInv E N q comp ts := by
  refine ⟨h.len, h.le, h.sound, fun t ht => ⟨?_, hrest t ht⟩, ?_, huniq⟩
  · have hnq : (∀ n, t.pc.owns ≠ some n) → ¬ q := by
      intro k hq'
      obtain ⟨n, hn⟩ := hq hq' t ht
      exact k n hn
    rcases hfresh t ht with m | ⟨u, c, rfl⟩ | ⟨n, rfl⟩
    · rw [m]; rw [m] at hnq
      exact hnq fun n hn => by cases hn
    · exact ⟨hgate _ ht u c rfl, hnq fun n hn => by cases hn⟩
    · exact hown _ ht n rfl
  · intro t ht u c hc
    rcases hfresh t ht with m | ⟨u, c, rfl⟩ | ⟨n, rfl⟩
    · rw [m] at hc; cases hc
    · rfl
    · cases hc

/-- The compressors of all vertices. -/
theorem compressors_uniq {N : Nat} (i j : Nat) (t t' : Task) (n : Nat) (hi : ((List.range N).map compressor)[i]? = some t)
    (hj : ((List.range N).map compressor)[j]? = some t') (h : t.pc.owns = some n) (h' : t'.pc.owns = some n) : i = j := by
  have key : ∀ (k : Nat) (x : Task), ((List.range N).map compressor)[k]? = some x → x.pc.owns = some k := by
    intro k x hx
    rw [List.getElem?_map] at hx
    rcases Nat.lt_or_ge k N with c | c
    · rw [List.getElem?_range c] at hx
      cases hx; rfl
    · rw [List.getElem?_eq_none (by simpa using c)] at hx
      cases hx
  have a := key i t hi
  have b := key j t' hj
  rw [a] at h; rw [b] at h'
  cases h; cases h'; rfl

/-- Compressed pointers are the least vertices of their components. -/
theorem Base.least {E : Nat → Nat → Prop} {N : Nat} {comp : List Nat} (h : Base E N comp) (hE : ∀ a b, E a b → root (par comp) a = root (par comp) b)
    (hfix : ∀ n, n < N → par comp (par comp n) = par comp n) : LeastLabels E N comp := by
  intro x hx
  refine ⟨par comp x, ?_, h.sound x, ?_⟩
  · have := par_get h.len hx
    rw [vget_eq_ok] at this; exact this
  · intro y hy
    have := hy.const (root (par comp)) hE
    rw [root_eq_of_fix h.le (hfix x hx)] at this
    rw [this]
    exact root_le _ _

theorem has_running {ts : List Task} (h : ¬ ∀ t ∈ ts, t.finished = true) : ∃ (i : Nat) (t : Task), ts[i]? = some t ∧ t.finished = false := by
  induction ts with
  | nil => exact absurd (by simp) h
  | cons x xs ih =>
    cases hx : x.finished with
    | false => exact ⟨0, x, rfl, hx⟩
    | true =>
      obtain ⟨i, t, h1, h2⟩ := ih fun hall => h fun t ht => by
        rcases List.mem_cons.1 ht with rfl | ht
        · exact hx
        · exact hall t ht
      exact ⟨i + 1, t, h1, h2⟩

/-- A pool always ends. -/
theorem pool_sure {E : Nat → Nat → Prop} {N L B : Nat} {q : Prop} {late : Nat → Res (List (Nat × Nat))} (hB : N ≤ B) (hlate : LateOk E N L late)
    {comp0 : List Nat} {ts0 : List Task} (h : CInv E N q comp0 ts0) :
    Sure (PoolStep B late) (fun comp => ∃ ts, PInv E N q late comp0 ts0 comp ts ∧ ∀ t ∈ ts, t.finished = true) (comp0, ts0) := by
  refine Sure.of_inv Nat.lt_wfRel.wf (fun s => (s.2.map (tmu N L (par s.1))).sum) (fun s => PInv E N q late comp0 ts0 s.1 s.2) ?_ ?_ _ (PInv.init h)
  · rintro ⟨comp, ts⟩ _
    by_cases c : ∀ t ∈ ts, t.finished = true
    · exact ⟨_, .join c⟩
    · obtain ⟨i, t, h1, h2⟩ := has_running c
      exact ⟨_, .task h1 h2⟩
  · rintro ⟨comp, ts⟩ o hs hst
    cases hst with
    | task hi hf =>
      obtain ⟨comp', t', k1, k2, k3⟩ := PInv.step hB hlate hs hi hf
      exact Or.inl ⟨_, by rw [k1]; rfl, k2, k3⟩
    | join hf => exact Or.inr ⟨_, rfl, ts, hs, hf⟩

end NW.Cc
