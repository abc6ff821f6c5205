import Verif.Model.LpExp
import Verif.Lemmas.CcExp
import Verif.Lemmas.BfsDirExp
import Verif.Props.Cc

/-! # Lemmas: the invariant of label propagation -/

namespace NW.LpExp
open Spec
open CcExp (par par_get par_set)

variable {α : Type}

/-- `bits[x]` is set. -/
def Bit (m : Mem) (x : Nat) : Prop := m.bits[x]? = some true

/-- The task lowered the label of `z` and has not dealt with its bit. -/
def Act (t : Task) (z : Nat) : Prop := ∃ lx, t.pc = .get lx z ∨ t.pc = .set lx z

/-- The task, which read `lx`, has yet to look at `y`. -/
def Todo (t : Task) (lx y : Nat) : Prop :=
  match t.pc with
  | .start => False
  | .loop l | .get l _ | .set l _ | .push l _ => l = lx ∧ y ∈ t.rest
  | .rd l z | .cas l z _ => l = lx ∧ (y = z ∨ y ∈ t.rest)

/-- The task takes care of the edge from `x` to `y`. -/
def Cov (labels : List Nat) (t : Task) (x y : Nat) : Prop :=
  (t.x = x ∧ (t.pc = .start ∨ ∃ lx, lx ≤ par labels x ∧ Todo t lx y)) ∨ Act t x

/-- What is known about a task. -/
structure TaskOk (g : Rows α) (m : Mem) (t : Task) : Prop where
  x : t.x < g.length
  rest : ∀ y ∈ t.rest, Edge g t.x y
  pc : match t.pc with
    | .start => True
    | .loop lx => Reachable g lx t.x
    | .rd lx y => Reachable g lx t.x ∧ Edge g t.x y
    | .cas lx y prev => Reachable g lx t.x ∧ Edge g t.x y ∧ par m.labels y ≤ prev
    | .get lx y | .set lx y => Reachable g lx t.x ∧ y < g.length
    | .push lx y => Reachable g lx t.x ∧ y < g.length ∧ Bit m y

/-- What holds of the labels. -/
structure LOk (g : Rows α) (labels : List Nat) : Prop where
  len : labels.length = g.length
  le : ∀ x, par labels x ≤ x
  sound : ∀ x, Reachable g (par labels x) x

/-- The invariant of `propagate`. -/
structure RInv (g : Rows α) (bins : Nat) (m : Mem) (ts : List Task) : Prop where
  lab : LOk g m.labels
  blen : m.bits.length = g.length
  nlists : m.lists.length = bins
  tasks : ∀ t ∈ ts, TaskOk g m t
  listed : ∀ y, Bit m y → y ∈ m.lists.flatten ∨ ∃ t ∈ ts, ∃ lx, t.pc = .push lx y
  marked : ∀ y ∈ m.lists.flatten, Bit m y
  cov : ∀ x y, Edge g x y → par m.labels y ≤ par m.labels x ∨ Bit m x ∨ ∃ t ∈ ts, Cov m.labels t x y

/-- Something has been lowered in this round. -/
def Dirty (m : Mem) (ts : List Task) : Prop := (∃ y, Bit m y) ∨ ∃ t ∈ ts, ∃ y, Act t y

/-- The steps left to a task. -/
def weight (g : Rows α) (labels : List Nat) (t : Task) : Nat :=
  match t.pc with
  | .start => 8 * (g.getD t.x []).length + 1
  | .loop _ => 8 * t.rest.length
  | .rd _ _ => 8 * t.rest.length + 5
  | .cas _ y prev => 8 * t.rest.length + (if par labels y = prev then 4 else 6)
  | .get _ _ => 8 * t.rest.length + 3
  | .set _ _ => 8 * t.rest.length + 2
  | .push _ _ => 8 * t.rest.length + 1

theorem Reachable.edge {g : Rows α} {l x y : Nat} (h : Reachable g l x) (he : Edge g x y) : Reachable g l y := by
  obtain ⟨k, hk⟩ := h
  exact ⟨k + 1, hk.snoc he⟩

theorem mem_set_cases {τ : Type} {ts : List τ} {i : Nat} {t t' : τ} (hi : ts[i]? = some t) :
    (∀ x ∈ ts.set i t', x = t' ∨ x ∈ ts) ∧ t' ∈ ts.set i t' ∧ ∀ x ∈ ts, x = t ∨ x ∈ ts.set i t' := by
  refine ⟨fun x hx => (List.mem_or_eq_of_mem_set hx).symm, List.mem_of_getElem? (getElem?_set_same (t' := t') hi), ?_⟩
  intro x hx
  obtain ⟨j, hj⟩ := List.getElem?_of_mem hx
  by_cases c : i = j
  · subst c
    rw [hi] at hj
    cases hj
    exact Or.inl rfl
  · exact Or.inr (List.mem_of_getElem? ((getElem?_set_other (t' := t') c).trans hj))

/-- A step that leaves the labels alone. -/
theorem RInv.local {g : Rows α} {bins : Nat} {m : Mem} {ts : List Task} (h : RInv g bins m ts) {i : Nat} {t t' : Task} (hi : ts[i]? = some t)
    {bits' : List Bool} {lists' : List (List Nat)} (hb : bits'.length = g.length) (hl : lists'.length = bins)
    (hmono : ∀ y, Bit m y → Bit ⟨m.labels, bits', lists'⟩ y) (hok : TaskOk g ⟨m.labels, bits', lists'⟩ t')
    (hlisted : ∀ y, Bit ⟨m.labels, bits', lists'⟩ y → y ∈ lists'.flatten ∨ (∃ lx, t'.pc = .push lx y) ∨ ∃ t₂ ∈ ts, t₂ ≠ t ∧ ∃ lx, t₂.pc = .push lx y)
    (hmarked : ∀ y ∈ lists'.flatten, Bit ⟨m.labels, bits', lists'⟩ y)
    (hcov : ∀ x y, Edge g x y → Cov m.labels t x y → par m.labels y ≤ par m.labels x ∨ Bit ⟨m.labels, bits', lists'⟩ x ∨ Cov m.labels t' x y) :
    RInv g bins ⟨m.labels, bits', lists'⟩ (ts.set i t') := by
  obtain ⟨hmem, hset, hother⟩ := mem_set_cases (t' := t') hi
  refine ⟨h.lab, hb, hl, ?_, ?_, hmarked, ?_⟩
  · intro x hx
    rcases hmem x hx with rfl | hx
    · exact hok
    · obtain ⟨h1, h2, h3⟩ := h.tasks x hx
      refine ⟨h1, h2, ?_⟩
      revert h3
      cases x.pc with
      | push => exact fun k => ⟨k.1, k.2.1, hmono _ k.2.2⟩
      | _ => exact id
  · intro y hy
    rcases hlisted y hy with k | k | ⟨t₂, k1, k2, k3⟩
    · exact Or.inl k
    · exact Or.inr ⟨t', hset, k⟩
    · rcases hother t₂ k1 with e | e
      · exact absurd e k2
      · exact Or.inr ⟨t₂, e, k3⟩
  · intro x y he
    rcases h.cov x y he with k | k | ⟨t₂, k1, k2⟩
    · exact Or.inl k
    · exact Or.inr (Or.inl (hmono x k))
    · rcases hother t₂ k1 with e | e
      · subst e
        rcases hcov x y he k2 with k | k | k
        · exact Or.inl k
        · exact Or.inr (Or.inl k)
        · exact Or.inr (Or.inr ⟨t', hset, k⟩)
      · exact Or.inr (Or.inr ⟨t₂, e, k2⟩)

/-- A step that leaves memory alone. -/
theorem RInv.quiet {g : Rows α} {bins : Nat} {m : Mem} {ts : List Task} (h : RInv g bins m ts) {i : Nat} {t t' : Task} (hi : ts[i]? = some t)
    (hok : TaskOk g m t') (hpush : ∀ lx y, t.pc ≠ .push lx y)
    (hcov : ∀ x y, Edge g x y → Cov m.labels t x y → par m.labels y ≤ par m.labels x ∨ Bit m x ∨ Cov m.labels t' x y) :
    RInv g bins m (ts.set i t') := by
  refine h.local hi (bits' := m.bits) (lists' := m.lists) h.blen h.nlists (fun _ k => k) hok ?_ h.marked hcov
  intro y hy
  rcases h.listed y hy with k | ⟨t₂, k1, lx, k2⟩
  · exact Or.inl k
  · exact Or.inr (Or.inr ⟨t₂, k1, fun e => hpush lx y (e ▸ k2), lx, k2⟩)

/-- The step that lowers a label. -/
theorem RInv.lower {g : Rows α} {bins : Nat} {m : Mem} {ts : List Task} (h : RInv g bins m ts) {i : Nat} {t : Task} (hi : ts[i]? = some t)
    {lx y : Nat} (hpc : t.pc = .cas lx y (par m.labels y)) (hlt : lx < par m.labels y) (hy : y < g.length) :
    RInv g bins { m with labels := m.labels.set y lx } (ts.set i ⟨t.x, .get lx y, t.rest⟩) := by
  obtain ⟨hmem, hset, hother⟩ := mem_set_cases (t' := (⟨t.x, .get lx y, t.rest⟩ : Task)) hi
  obtain ⟨k1, k2, k3⟩ := h.tasks t (List.mem_of_getElem? hi)
  rw [hpc] at k3
  obtain ⟨k3, k4, -⟩ := k3
  have hpar : ∀ z, par (m.labels.set y lx) z = if z = y then lx else par m.labels z := par_set h.lab.len hy
  have hle : ∀ z, par (m.labels.set y lx) z ≤ par m.labels z := by
    intro z
    rw [hpar]
    split
    · rename_i e; subst e; omega
    · exact Nat.le_refl _
  refine ⟨⟨by rw [List.length_set]; exact h.lab.len, fun z => Nat.le_trans (hle z) (h.lab.le z), ?_⟩, h.blen, h.nlists, ?_, ?_, h.marked, ?_⟩
  · intro z
    show Reachable g (par (m.labels.set y lx) z) z
    rw [hpar]
    split
    · rename_i e; subst e; exact Reachable.edge k3 k4
    · exact h.lab.sound z
  · intro x hx
    rcases hmem x hx with rfl | hx
    · exact ⟨k1, k2, k3, hy⟩
    · obtain ⟨h1, h2, h3⟩ := h.tasks x hx
      refine ⟨h1, h2, ?_⟩
      revert h3
      cases x.pc with
      | cas => exact fun k => ⟨k.1, k.2.1, Nat.le_trans (hle _) k.2.2⟩
      | _ => exact id
  · intro z hz
    rcases h.listed z hz with k | ⟨t₂, m1, l, m2⟩
    · exact Or.inl k
    · rcases hother t₂ m1 with e | e
      · subst e; rw [hpc] at m2; cases m2
      · exact Or.inr ⟨t₂, e, l, m2⟩
  · intro a b hab
    show par (m.labels.set y lx) b ≤ par (m.labels.set y lx) a ∨ _
    by_cases c : a = y
    · subst c
      exact Or.inr (Or.inr ⟨_, hset, Or.inr ⟨lx, Or.inl rfl⟩⟩)
    · have ha : par (m.labels.set y lx) a = par m.labels a := by rw [hpar, if_neg c]
      rw [ha]
      rcases h.cov a b hab with k | k | ⟨t₂, m1, m2⟩
      · exact Or.inl (Nat.le_trans (hle b) k)
      · exact Or.inr (Or.inl k)
      · rcases hother t₂ m1 with e | e
        · subst e
          rcases m2 with ⟨n1, n2 | ⟨l, n2, n3⟩⟩ | ⟨l, n | n⟩
          · rw [hpc] at n2; cases n2
          · simp only [Todo, hpc] at n3
            obtain ⟨rfl, rfl | n3⟩ := n3
            · left
              rw [hpar, if_pos rfl]; exact n2
            · refine Or.inr (Or.inr ⟨_, hset, Or.inl ⟨n1, Or.inr ⟨lx, ?_, rfl, n3⟩⟩⟩)
              show lx ≤ par (m.labels.set y lx) a
              rw [ha]; exact n2
          · rw [hpc] at n; cases n
          · rw [hpc] at n; cases n
        · refine Or.inr (Or.inr ⟨t₂, e, ?_⟩)
          unfold Cov
          rw [show par ({ m with labels := m.labels.set y lx } : Mem).labels a = par m.labels a from ha]
          exact m2

/-- What a step does to the measure: either the labels go down, or they stay, nothing new is marked, and the task has less to do. -/
def Less (g : Rows α) (m m' : Mem) (ts ts' : List Task) : Prop :=
  m'.labels.sum < m.labels.sum ∨ (m'.labels = m.labels ∧ (Dirty m' ts' → Dirty m ts) ∧ (ts'.map (weight g m.labels)).sum < (ts.map (weight g m.labels)).sum)

theorem less_local {g : Rows α} {m m' : Mem} {ts : List Task} {i : Nat} {t t' : Task} (hi : ts[i]? = some t) (hl : m'.labels = m.labels)
    (hbits : ∀ y, Bit m' y → Bit m y ∨ ∃ y, Act t y) (hact : ∀ y, Act t' y → ∃ y, Act t y) (hw : weight g m.labels t' < weight g m.labels t) :
    Less g m m' ts (ts.set i t') := by
  refine Or.inr ⟨hl, ?_, sum_map_set_lt _ hi hw⟩
  have ht := List.mem_of_getElem? hi
  rintro (⟨y, hy⟩ | ⟨x, hx, y, hy⟩)
  · rcases hbits y hy with k | k
    · exact Or.inl ⟨y, k⟩
    · exact Or.inr ⟨t, ht, k⟩
  · rcases (mem_set_cases (t' := t') hi).1 x hx with rfl | hx
    · exact Or.inr ⟨t, ht, hact y hy⟩
    · exact Or.inr ⟨x, hx, y, hy⟩

theorem bit_set {m : Mem} {y z : Nat} (hy : y < m.bits.length) : (m.bits.set y true)[z]? = some true ↔ z = y ∨ m.bits[z]? = some true := by
  rw [List.getElem?_set]
  by_cases c : y = z
  · subst c; simp [hy]
  · have : z ≠ y := fun e => c e.symm
    simp [c, this]

theorem mem_flatten_set {l : List (List Nat)} {w y z : Nat} {b : List Nat} (h : l[w]? = some b) :
    z ∈ (l.set w (b ++ [y])).flatten ↔ z = y ∨ z ∈ l.flatten := by
  obtain ⟨hmem, hset, hother⟩ := mem_set_cases (t' := b ++ [y]) h
  simp only [List.mem_flatten]
  constructor
  · rintro ⟨c, hc, hz⟩
    rcases hmem c hc with rfl | hc
    · rcases List.mem_append.1 hz with k | k
      · exact Or.inr ⟨b, List.mem_of_getElem? h, k⟩
      · exact Or.inl (List.mem_singleton.1 k)
    · exact Or.inr ⟨c, hc, hz⟩
  · rintro (rfl | ⟨c, hc, hz⟩)
    · exact ⟨_, hset, by simp⟩
    · rcases hother c hc with rfl | hc
      · exact ⟨_, hset, List.mem_append.2 (Or.inl hz)⟩
      · exact ⟨c, hc, hz⟩

theorem sum_set_lt {l : List Nat} {i x y : Nat} (h : l[i]? = some x) (hy : y < x) : (l.set i y).sum < l.sum := by
  have := sum_map_set_lt (fun x => x) (t' := y) h hy
  simpa using this

/-- Every step of a task is safe, keeps the invariant and makes progress. -/
theorem RInv.step {g : Rows α} {bins : Nat} {m : Mem} {ts : List Task} (hg : InRange g) (h : RInv g bins m ts) {i w : Nat} {t : Task} (hi : ts[i]? = some t)
    (hf : t.finished = false) (hw : w < bins) :
    ∃ m' t', taskStep g w m t = .ok (m', t') ∧ RInv g bins m' (ts.set i t') ∧ Less g m m' ts (ts.set i t') := by
  have hok := h.tasks t (List.mem_of_getElem? hi)
  obtain ⟨x, pc, rest⟩ := t
  obtain ⟨hx, hrest, hpc⟩ := hok
  cases pc with
  | start =>
    refine ⟨m, ⟨x, .loop (par m.labels x), (g.getD x []).map Prod.fst⟩, ?_, ?_, ?_⟩
    · simp only [taskStep]
      rw [par_get h.lab.len hx, res_bind_ok, Cc.vget_getD hx]; rfl
    · refine h.quiet hi ⟨hx, ?_, h.lab.sound x⟩ (fun _ _ => nofun) ?_
      · intro y hy
        obtain ⟨e, he, rfl⟩ := List.mem_map.1 hy
        exact Cc.edge_iff_entry.2 ⟨e, he, rfl⟩
      · rintro a b hab (⟨rfl, -⟩ | k)
        · obtain ⟨e, he, rfl⟩ := Cc.edge_iff_entry.1 hab
          exact Or.inr (Or.inr (Or.inl ⟨rfl, Or.inr ⟨_, Nat.le_refl _, rfl, List.mem_map.2 ⟨e, he, rfl⟩⟩⟩))
        · rcases k with ⟨_, k | k⟩ <;> cases k
    · exact less_local hi rfl (fun _ k => Or.inl k) (fun y k => (by rcases k with ⟨_, k | k⟩ <;> cases k)) (by simp [weight])
  | loop lx =>
    cases rest with
    | nil => cases hf
    | cons y r =>
      have he := hrest y List.mem_cons_self
      have hy := hg x y he
      have hget := par_get h.lab.len hy
      by_cases c : lx < par m.labels y
      · refine ⟨m, ⟨x, .rd lx y, r⟩, ?_, ?_, ?_⟩
        · simp only [taskStep]
          rw [hget, res_bind_ok, if_pos c]; rfl
        · refine h.quiet hi ⟨hx, fun z hz => hrest z (List.mem_cons_of_mem _ hz), hpc, he⟩ (fun _ _ => nofun) ?_
          rintro a b hab (⟨k1, k2 | ⟨l, k2, k3, k4⟩⟩ | k)
          · cases k2
          · exact Or.inr (Or.inr (Or.inl ⟨k1, Or.inr ⟨l, k2, k3, List.mem_cons.1 k4⟩⟩))
          · rcases k with ⟨_, k | k⟩ <;> cases k
        · exact less_local hi rfl (fun _ k => Or.inl k) (fun y k => (by rcases k with ⟨_, k | k⟩ <;> cases k)) (by simp [weight]; omega)
      · refine ⟨m, ⟨x, .loop lx, r⟩, ?_, ?_, ?_⟩
        · simp only [taskStep]
          rw [hget, res_bind_ok, if_neg c]; rfl
        · refine h.quiet hi ⟨hx, fun z hz => hrest z (List.mem_cons_of_mem _ hz), hpc⟩ (fun _ _ => nofun) ?_
          rintro a b hab (⟨k1, k2 | ⟨l, k2, k3, k4⟩⟩ | k)
          · cases k2
          · cases k3
            rcases List.mem_cons.1 k4 with rfl | k4
            · left; omega
            · exact Or.inr (Or.inr (Or.inl ⟨k1, Or.inr ⟨_, k2, rfl, k4⟩⟩))
          · rcases k with ⟨_, k | k⟩ <;> cases k
        · exact less_local hi rfl (fun _ k => Or.inl k) (fun y k => (by rcases k with ⟨_, k | k⟩ <;> cases k)) (by simp [weight])
  | rd lx y =>
    obtain ⟨p1, p2⟩ := hpc
    have hy := hg x y p2
    refine ⟨m, ⟨x, .cas lx y (par m.labels y), rest⟩, ?_, ?_, ?_⟩
    · simp only [taskStep]
      rw [par_get h.lab.len hy]; rfl
    · refine h.quiet hi ⟨hx, hrest, p1, p2, Nat.le_refl _⟩ (fun _ _ => nofun) ?_
      rintro a b hab (⟨k1, k2 | ⟨l, k2, k3⟩⟩ | k)
      · cases k2
      · exact Or.inr (Or.inr (Or.inl ⟨k1, Or.inr ⟨l, k2, k3⟩⟩))
      · rcases k with ⟨_, k | k⟩ <;> cases k
    · exact less_local hi rfl (fun _ k => Or.inl k) (fun y k => (by rcases k with ⟨_, k | k⟩ <;> cases k)) (by simp [weight])
  | cas lx y prev =>
    obtain ⟨p1, p2, p3⟩ := hpc
    have hy := hg x y p2
    by_cases c : prev > lx
    · by_cases d : par m.labels y = prev
      · subst d
        refine ⟨{ m with labels := m.labels.set y lx }, ⟨x, .get lx y, rest⟩, ?_, h.lower hi rfl c hy, Or.inl ?_⟩
        · simp only [taskStep]
          rw [if_pos c, par_get h.lab.len hy, res_bind_ok, if_pos rfl, vset_of_lt (by rw [h.lab.len]; exact hy)]; rfl
        · have hgt : m.labels[y]? = some (par m.labels y) := by
            have := par_get h.lab.len hy
            rw [vget_eq_ok] at this; exact this
          exact sum_set_lt hgt c
      · refine ⟨m, ⟨x, .rd lx y, rest⟩, ?_, ?_, ?_⟩
        · simp only [taskStep]
          rw [if_pos c, par_get h.lab.len hy, res_bind_ok, if_neg d]; rfl
        · refine h.quiet hi ⟨hx, hrest, p1, p2⟩ (fun _ _ => nofun) ?_
          rintro a b hab (⟨k1, k2 | ⟨l, k2, k3⟩⟩ | k)
          · cases k2
          · exact Or.inr (Or.inr (Or.inl ⟨k1, Or.inr ⟨l, k2, k3⟩⟩))
          · rcases k with ⟨_, k | k⟩ <;> cases k
        · exact less_local hi rfl (fun _ k => Or.inl k) (fun y k => (by rcases k with ⟨_, k | k⟩ <;> cases k)) (by simp [weight, d])
    · refine ⟨m, ⟨x, .loop lx, rest⟩, ?_, ?_, ?_⟩
      · simp only [taskStep]
        rw [if_neg c]; rfl
      · refine h.quiet hi ⟨hx, hrest, p1⟩ (fun _ _ => nofun) ?_
        rintro a b hab (⟨k1, k2 | ⟨l, k2, k3, k4⟩⟩ | k)
        · cases k2
        · cases k3
          rcases k4 with rfl | k4
          · left; omega
          · exact Or.inr (Or.inr (Or.inl ⟨k1, Or.inr ⟨_, k2, rfl, k4⟩⟩))
        · rcases k with ⟨_, k | k⟩ <;> cases k
      · refine less_local hi rfl (fun _ k => Or.inl k) (fun y k => (by rcases k with ⟨_, k | k⟩ <;> cases k)) ?_
        simp only [weight]
        split <;> omega
  | get lx y =>
    obtain ⟨p1, hy⟩ := hpc
    have hbl : y < m.bits.length := by rw [h.blen]; exact hy
    by_cases c : m.bits[y] = false
    · refine ⟨m, ⟨x, .set lx y, rest⟩, ?_, ?_, ?_⟩
      · simp only [taskStep]
        rw [vget_of_lt hbl, res_bind_ok, if_pos c]; rfl
      · refine h.quiet hi ⟨hx, hrest, p1, hy⟩ (fun _ _ => nofun) ?_
        rintro a b hab (⟨k1, k2 | ⟨l, k2, k3⟩⟩ | ⟨l, k | k⟩)
        · cases k2
        · exact Or.inr (Or.inr (Or.inl ⟨k1, Or.inr ⟨l, k2, k3⟩⟩))
        · cases k
          exact Or.inr (Or.inr (Or.inr ⟨_, Or.inr rfl⟩))
        · cases k
      · exact less_local hi rfl (fun _ k => Or.inl k) (fun _ _ => ⟨y, lx, Or.inl rfl⟩) (by simp [weight])
    · refine ⟨m, ⟨x, .loop lx, rest⟩, ?_, ?_, ?_⟩
      · simp only [taskStep]
        rw [vget_of_lt hbl, res_bind_ok, if_neg c]; rfl
      · refine h.quiet hi ⟨hx, hrest, p1⟩ (fun _ _ => nofun) ?_
        rintro a b hab (⟨k1, k2 | ⟨l, k2, k3⟩⟩ | ⟨l, k | k⟩)
        · cases k2
        · exact Or.inr (Or.inr (Or.inl ⟨k1, Or.inr ⟨l, k2, k3⟩⟩))
        · cases k
          refine Or.inr (Or.inl ?_)
          unfold Bit
          rw [List.getElem?_eq_getElem hbl]
          simpa using c
        · cases k
      · exact less_local hi rfl (fun _ k => Or.inl k) (fun _ _ => ⟨y, lx, Or.inl rfl⟩) (by simp [weight])
  | set lx y =>
    obtain ⟨p1, hy⟩ := hpc
    have hbl : y < m.bits.length := by rw [h.blen]; exact hy
    have hself : Bit ⟨m.labels, m.bits.set y true, m.lists⟩ y := (bit_set hbl).2 (Or.inl rfl)
    by_cases c : m.bits[y] = false
    · refine ⟨⟨m.labels, m.bits.set y true, m.lists⟩, ⟨x, .push lx y, rest⟩, ?_, ?_, ?_⟩
      · simp only [taskStep]
        rw [vget_of_lt hbl, res_bind_ok, vset_of_lt hbl, res_bind_ok, if_pos c]; rfl
      · refine h.local hi (by rw [List.length_set]; exact h.blen) h.nlists (fun z hz => (bit_set hbl).2 (Or.inr hz)) ⟨hx, hrest, p1, hy, hself⟩ ?_ ?_ ?_
        · intro z hz
          rcases (bit_set hbl).1 hz with rfl | hz
          · exact Or.inr (Or.inl ⟨_, rfl⟩)
          · rcases h.listed z hz with k | ⟨t₂, k1, l, k2⟩
            · exact Or.inl k
            · exact Or.inr (Or.inr ⟨t₂, k1, (by rintro rfl; cases k2), l, k2⟩)
        · intro z hz
          exact (bit_set hbl).2 (Or.inr (h.marked z hz))
        · rintro a b hab (⟨k1, k2 | ⟨l, k2, k3⟩⟩ | ⟨l, k | k⟩)
          · cases k2
          · exact Or.inr (Or.inr (Or.inl ⟨k1, Or.inr ⟨l, k2, k3⟩⟩))
          · cases k
          · cases k
            exact Or.inr (Or.inl hself)
      · exact less_local hi rfl (fun z hz => Or.inr ⟨y, lx, Or.inr rfl⟩) (fun _ _ => ⟨y, lx, Or.inr rfl⟩) (by simp [weight])
    · refine ⟨⟨m.labels, m.bits.set y true, m.lists⟩, ⟨x, .loop lx, rest⟩, ?_, ?_, ?_⟩
      · simp only [taskStep]
        rw [vget_of_lt hbl, res_bind_ok, vset_of_lt hbl, res_bind_ok, if_neg c]; rfl
      · have hyb : Bit m y := by
          unfold Bit
          rw [List.getElem?_eq_getElem hbl]
          simpa using c
        refine h.local hi (by rw [List.length_set]; exact h.blen) h.nlists (fun z hz => (bit_set hbl).2 (Or.inr hz)) ⟨hx, hrest, p1⟩ ?_ ?_ ?_
        · intro z hz
          have hz : Bit m z := by
            rcases (bit_set hbl).1 hz with rfl | hz
            · exact hyb
            · exact hz
          rcases h.listed z hz with k | ⟨t₂, k1, l, k2⟩
          · exact Or.inl k
          · exact Or.inr (Or.inr ⟨t₂, k1, (by rintro rfl; cases k2), l, k2⟩)
        · intro z hz
          exact (bit_set hbl).2 (Or.inr (h.marked z hz))
        · rintro a b hab (⟨k1, k2 | ⟨l, k2, k3⟩⟩ | ⟨l, k | k⟩)
          · cases k2
          · exact Or.inr (Or.inr (Or.inl ⟨k1, Or.inr ⟨l, k2, k3⟩⟩))
          · cases k
          · cases k
            exact Or.inr (Or.inl hself)
      · exact less_local hi rfl (fun z hz => Or.inr ⟨y, lx, Or.inr rfl⟩) (fun _ _ => ⟨y, lx, Or.inr rfl⟩) (by simp [weight])
  | push lx y =>
    obtain ⟨p1, hy, hb⟩ := hpc
    have hwl : w < m.lists.length := by rw [h.nlists]; exact hw
    have hget : m.lists[w]? = some m.lists[w] := List.getElem?_eq_getElem hwl
    refine ⟨⟨m.labels, m.bits, m.lists.set w (m.lists[w] ++ [y])⟩, ⟨x, .loop lx, rest⟩, ?_, ?_, ?_⟩
    · simp only [taskStep]
      rw [vget_of_lt hwl, res_bind_ok, vset_of_lt hwl]; rfl
    · refine h.local hi h.blen (by rw [List.length_set]; exact h.nlists) (fun _ k => k) ⟨hx, hrest, p1⟩ ?_ ?_ ?_
      · intro z hz
        by_cases c : z = y
        · exact Or.inl ((mem_flatten_set hget).2 (Or.inl c))
        · rcases h.listed z hz with k | ⟨t₂, k1, l, k2⟩
          · exact Or.inl ((mem_flatten_set hget).2 (Or.inr k))
          · exact Or.inr (Or.inr ⟨t₂, k1, (by rintro rfl; cases k2; exact c rfl), l, k2⟩)
      · intro z hz
        rcases (mem_flatten_set hget).1 hz with rfl | hz
        · exact hb
        · exact h.marked z hz
      · rintro a b hab (⟨k1, k2 | ⟨l, k2, k3⟩⟩ | k)
        · cases k2
        · exact Or.inr (Or.inr (Or.inl ⟨k1, Or.inr ⟨l, k2, k3⟩⟩))
        · rcases k with ⟨_, k | k⟩ <;> cases k
    · exact less_local hi rfl (fun _ k => Or.inl k) (fun y k => (by rcases k with ⟨_, k | k⟩ <;> cases k)) (by simp [weight])

theorem has_running {ts : List Task} (h : ¬ ∀ t ∈ ts, t.finished = true) : ∃ (i : Nat) (t : Task), ts[i]? = some t ∧ t.finished = false := by
  push Not at h
  obtain ⟨t, ht, hf⟩ := h
  obtain ⟨i, hi⟩ := List.getElem?_of_mem ht
  exact ⟨i, t, hi, by simpa using hf⟩

theorem finished_loop {t : Task} (h : t.finished = true) : ∃ lx, t.pc = .loop lx ∧ t.rest = [] := by
  obtain ⟨x, pc, rest⟩ := t
  cases pc <;> cases rest <;> first | exact ⟨_, rfl, rfl⟩ | cases h

/-- When all tasks have finished. -/
theorem RInv.ended {g : Rows α} {bins : Nat} {m : Mem} {ts : List Task} (h : RInv g bins m ts) (hf : ∀ t ∈ ts, t.finished = true) :
    (∀ y, y ∈ m.lists.flatten ↔ Bit m y) ∧ (∀ x y, Edge g x y → par m.labels y ≤ par m.labels x ∨ x ∈ m.lists.flatten) ∧ (Dirty m ts ↔ m.lists.flatten ≠ []) := by
  have h1 : ∀ y, y ∈ m.lists.flatten ↔ Bit m y := by
    refine fun y => ⟨h.marked y, fun hy => ?_⟩
    rcases h.listed y hy with k | ⟨t, ht, lx, k⟩
    · exact k
    · obtain ⟨l, e, -⟩ := finished_loop (hf t ht)
      rw [k] at e; cases e
  have hact : ∀ t ∈ ts, ∀ y, ¬ Act t y := by
    rintro t ht y ⟨lx, k | k⟩ <;> obtain ⟨l, e, -⟩ := finished_loop (hf t ht) <;> rw [k] at e <;> cases e
  refine ⟨h1, fun x y he => ?_, ?_, ?_⟩
  · rcases h.cov x y he with k | k | ⟨t, ht, k⟩
    · exact Or.inl k
    · exact Or.inr ((h1 x).2 k)
    · exfalso
      obtain ⟨l, e, e2⟩ := finished_loop (hf t ht)
      rcases k with ⟨-, k | ⟨lx, -, k⟩⟩ | k
      · rw [e] at k; cases k
      · simp only [Todo, e, e2] at k
        exact absurd k.2 List.not_mem_nil
      · exact hact t ht x k
  · rintro (⟨y, hy⟩ | ⟨t, ht, y, hy⟩) hn
    · have := (h1 y).2 hy
      rw [hn] at this; cases this
    · exact hact t ht y hy
  · intro hn
    obtain ⟨y, hy⟩ := List.exists_mem_of_ne_nil _ hn
    exact Or.inl ⟨y, (h1 y).1 hy⟩

end NW.LpExp
