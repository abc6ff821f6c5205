import Verif.Lemmas.LpExp
import Verif.Props.CcExp
import Verif.Spec.Components

/-! # Property C87: label propagation -/

namespace NW.LpExp
open Spec
open CcExp (par par_get par_set)

variable {α : Type}

/-- Every vertex is labelled with the least vertex from which it can be reached. -/
def LeastSource (g : Rows α) (comp : List Nat) : Prop :=
  comp.length = g.length ∧ ∀ y, y < g.length → ∃ l, comp[y]? = some l ∧ Reachable g l y ∧ ∀ z, Reachable g z y → l ≤ z

theorem LOk.least {g : Rows α} {labels : List Nat} (h : LOk g labels) (hcl : ∀ x y, Edge g x y → par labels y ≤ par labels x) : LeastSource g labels := by
  refine ⟨h.len, fun y hy => ⟨par labels y, ?_, h.sound y, ?_⟩⟩
  · have := par_get h.len hy
    rw [vget_eq_ok] at this; exact this
  · rintro z ⟨k, hw⟩
    clear hy
    induction hw with
    | nil => exact h.le z
    | snoc _ he ih => exact Nat.le_trans (hcl _ _ he) ih

/-- The whole program's invariant. -/
def Inv (g : Rows α) (bins : Nat) : State → Prop
  | .head m cur => LOk g m.labels ∧ m.bits = List.replicate g.length false ∧ m.lists = List.replicate bins [] ∧ (∀ x ∈ cur, x < g.length) ∧
      ∀ x y, Edge g x y → par m.labels y ≤ par m.labels x ∨ x ∈ cur
  | .run m ts => RInv g bins m ts

def sumOf : State → Nat
  | .head m _ | .run m _ => m.labels.sum

open Classical in
noncomputable def phase : State → Nat
  | .head _ cur => if cur = [] then 2 else 4
  | .run m ts => if Dirty m ts then 5 else 3

def work (g : Rows α) : State → Nat
  | .head .. => 0
  | .run m ts => (ts.map (weight g m.labels)).sum

theorem items_mem {ver : Ver} {N : Nat} {cur : List Nat} (h : ∀ x ∈ cur, x < N) : (∀ x ∈ items ver N cur, x < N) ∧ ∀ x ∈ cur, x ∈ items ver N cur := by
  cases ver with
  | plain => exact ⟨h, fun _ k => k⟩
  | cyclic => exact ⟨fun x hx => by simpa [items] using hx, fun x hx => by simpa [items] using h x hx⟩

/-- C87. `lpcc` and `lpcc_cyclic`: for every graph, directed or not, every schedule and every placement of tasks on at most `num_bins` threads, they end
without a fault and label every vertex, and nothing else, with the least vertex from which it can be reached. -/
theorem lpcc_partial (ver : Ver) (g : Rows α) (bins threads : Nat) (hg : InRange g) (h0 : 0 < threads) (hb : threads ≤ bins) :
    Sure (Step ver g threads) (LeastSource g) (start g bins) := by
  refine Sure.of_inv (lt := Prod.Lex (· < ·) (Prod.Lex (· < ·) (· < ·))) (Prod.lex Nat.lt_wfRel (Prod.lex Nat.lt_wfRel Nat.lt_wfRel)).wf
    (fun s => (sumOf s, phase s, work g s)) (Inv g bins) ?_ ?_ _ ?_
  · intro s hI
    cases s with
    | head m cur =>
      cases cur with
      | nil => exact ⟨_, .stop⟩
      | cons => exact ⟨_, .go (by simp)⟩
    | run m ts =>
      by_cases c : ∀ t ∈ ts, t.finished = true
      · exact ⟨_, .join c (List.Perm.refl _)⟩
      · obtain ⟨i, t, h1, h2⟩ := has_running c
        exact ⟨_, .task h1 h2 h0⟩
  · intro s o hI hstep
    cases hstep with
    | @stop m =>
      obtain ⟨h1, -, -, -, h5⟩ := hI
      refine Or.inr ⟨_, rfl, h1.least fun x y he => ?_⟩
      rcases h5 x y he with k | k
      · exact k
      · cases k
    | @go m cur hne =>
      left
      obtain ⟨h1, h2, h3, h4, h5⟩ := hI
      obtain ⟨i1, i2⟩ := items_mem (ver := ver) h4
      have hbit : ∀ y, ¬ Bit m y := by
        intro y hy
        unfold Bit at hy
        rw [h2] at hy
        have := List.mem_of_getElem? hy
        simp at this
      refine ⟨_, rfl, ⟨h1, by rw [h2]; simp, by rw [h3]; simp, ?_, fun y hy => absurd hy (hbit y), ?_, ?_⟩, .right _ (.left _ _ ?_)⟩
      · intro t ht
        obtain ⟨x, hx, rfl⟩ := List.mem_map.1 ht
        exact ⟨i1 x hx, nofun, trivial⟩
      · intro y hy
        rw [h3] at hy
        simp at hy
      · intro x y he
        rcases h5 x y he with k | k
        · exact Or.inl k
        · exact Or.inr (Or.inr ⟨_, List.mem_map.2 ⟨x, i2 x k, rfl⟩, Or.inl ⟨rfl, Or.inl rfl⟩⟩)
      · have : ¬ Dirty m ((items ver g.length cur).map fun x => ⟨x, .start, []⟩) := by
          rintro (⟨y, hy⟩ | ⟨t, ht, y, lx, k⟩)
          · exact hbit y hy
          · obtain ⟨x, -, rfl⟩ := List.mem_map.1 ht
            rcases k with k | k <;> cases k
        simp only [phase, if_neg this, if_neg hne]; omega
    | @task m ts i w t hi hf hw =>
      left
      obtain ⟨m', t', k1, k2, k3⟩ := RInv.step hg hI hi hf (Nat.lt_of_lt_of_le hw hb)
      rw [k1]
      refine ⟨_, rfl, k2, ?_⟩
      rcases k3 with k | ⟨e, k, l⟩
      · exact .left _ _ k
      · have hs : sumOf (.run m' (ts.set i t')) = sumOf (.run m ts) := by simp only [sumOf, e]
        have hwk : work g (.run m' (ts.set i t')) < work g (.run m ts) := by simp only [work, e]; exact l
        simp only [hs]
        refine .right _ ?_
        by_cases d : Dirty m' (ts.set i t')
        · simp only [phase, if_pos d, if_pos (k d)]
          exact .right _ hwk
        · by_cases d' : Dirty m ts
          · simp only [phase, if_neg d, if_pos d']
            exact .left _ _ (by omega)
          · simp only [phase, if_neg d, if_neg d']
            exact .right _ hwk
    | @join m ts ord hf ho =>
      left
      obtain ⟨k1, k2, k3⟩ := RInv.ended hI hf
      have hR : RInv g bins m ts := hI
      have : endRound ord m = .ok (.head ⟨m.labels, m.bits.map fun _ => false, List.replicate m.lists.length []⟩ m.lists.flatten) := by
        unfold endRound
        rw [BfsDirExp.flush_run [] ho]; rfl
      rw [this]
      refine ⟨_, rfl, ⟨hR.lab, ?_, ?_, ?_, k2⟩, .right _ (.left _ _ ?_)⟩
      · rw [List.map_const', hR.blen]
      · rw [hR.nlists]
      · intro x hx
        have := (k1 x).1 hx
        have := (List.getElem?_eq_some_iff.1 this).1
        rw [hR.blen] at this; exact this
      · by_cases c : m.lists.flatten = []
        · have : ¬ Dirty m ts := fun d => (k3.1 d) c
          simp only [phase, if_neg this, if_pos c]; omega
        · simp only [phase, if_pos (k3.2 c), if_neg c]; omega
  · have hp : ∀ x, par (List.range g.length) x = x := by
      intro x
      rw [par, List.getD_eq_getElem?_getD]
      rcases Nat.lt_or_ge x g.length with c | c
      · rw [List.getElem?_range c]; rfl
      · rw [List.getElem?_eq_none (by simpa using c)]; rfl
    refine ⟨⟨by simp, fun x => ?_, fun x => ?_⟩, rfl, rfl, fun x hx => by simpa using hx, fun x y he => Or.inr (by simpa using he.src_lt)⟩
    · show par (List.range g.length) x ≤ x
      rw [hp]; exact Nat.le_refl _
    · show Reachable g (par (List.range g.length) x) x
      rw [hp]; exact ⟨0, .nil⟩

theorem reachable_conn {g : Rows α} {x y : Nat} (h : Reachable g x y) : Conn (Edge g) x y := by
  obtain ⟨k, hw⟩ := h
  induction hw with
  | nil => exact .refl _
  | snoc _ he ih => exact ih.fwd he

theorem conn_reachable {g : Rows α} (hs : ∀ u v, Edge g u v → Edge g v u) {x y : Nat} (h : Conn (Edge g) x y) : Reachable g x y := by
  induction h with
  | refl => exact ⟨0, .nil⟩
  | fwd _ he ih => exact Reachable.edge ih he
  | bwd _ he ih => exact Reachable.edge ih (hs _ _ he)

/-- C87. On symmetric graphs, the labels are the least vertices of the connected components. -/
theorem lpcc_symmetric_partial (ver : Ver) (g : Rows α) (bins threads : Nat) (hg : InRange g) (hs : ∀ u v, Edge g u v → Edge g v u) (h0 : 0 < threads)
    (hb : threads ≤ bins) :
    Sure (Step ver g threads) (fun comp => comp.length = g.length ∧ LeastLabels (Edge g) g.length comp ∧ ComponentLabels (Edge g) g.length comp) (start g bins) := by
  refine (lpcc_partial ver g bins threads hg h0 hb).mono fun comp h => ?_
  have : LeastLabels (Edge g) g.length comp := by
    intro x hx
    obtain ⟨l, h1, h2, h3⟩ := h.2 x hx
    exact ⟨l, h1, (reachable_conn h2).symm, fun y hy => h3 y (conn_reachable hs hy.symm)⟩
  exact ⟨h.1, this, this.components⟩

/-- C87. With an edge 1→0 only, the labels of its ends differ in every run: on directed graphs the result is not the weak components. -/
theorem lpcc_directed (ver : Ver) : Sure (Step ver ([[], [(0, ())]] : Rows Unit) 1) (fun comp => comp[0]? ≠ comp[1]?) (start ([[], [(0, ())]] : Rows Unit) 32) := by
  refine (lpcc_partial ver ([[], [(0, ())]] : Rows Unit) 32 1 (by decide) (by decide) (by decide)).mono fun comp h => ?_
  obtain ⟨l0, a1, -, a3⟩ := h.2 0 (by decide)
  obtain ⟨l1, b1, b2, -⟩ := h.2 1 (by decide)
  have h0 := a3 0 ⟨0, .nil⟩
  have h1 : l1 = 1 := by
    obtain ⟨k, hw⟩ := b2
    cases hw with
    | nil => rfl
    | @snoc v _ k hw he =>
      have hv := he.src_lt
      have : ∀ v < 2, ¬ Edge ([[], [(0, ())]] : Rows Unit) v 1 := by decide
      exact absurd he (this v hv)
  rw [a1, b1]
  intro e
  cases e
  omega

/-- One scheduler's choice. -/
inductive Move where
  | go
  | task (i w : Nat)

/-- Executes a choice. -/
def move (ver : Ver) (g : Rows α) (threads : Nat) (s : State) (mv : Move) : Option (Res (State ⊕ List Nat)) :=
  match s, mv with
  | .head m cur, .go => if cur ≠ [] then some (.ok (.inl (.run m ((items ver g.length cur).map fun x => ⟨x, .start, []⟩)))) else none
  | .run m ts, .task i w => match ts[i]? with
    | some t => if t.finished = false ∧ w < threads then some ((taskStep g w m t).map fun x => .inl (.run x.1 (ts.set i x.2))) else none
    | none => none
  | _, _ => none

theorem move_step {ver : Ver} {g : Rows α} {threads : Nat} {s : State} {mv : Move} {o : Res (State ⊕ List Nat)} (h : move ver g threads s mv = some o) :
    Step ver g threads s o := by
  unfold move at h
  split at h
  · split at h
    · rename_i hc
      cases h
      exact .go hc
    · cases h
  · split at h
    · rename_i hi
      split at h
      · rename_i hf
        cases h
        exact .task hi hf.1 hf.2
      · cases h
    · cases h
  · cases h

/-- Executes choices to the end. -/
def moves (ver : Ver) (g : Rows α) (threads : Nat) : List Move → State → Option (Res (List Nat))
  | [], _ => none
  | mv :: ms, s => match move ver g threads s mv with
    | some (.ok (.inl s')) => moves ver g threads ms s'
    | some (.ok (.inr r)) => some (.ok r)
    | some (.error f) => some (.error f)
    | none => none

theorem moves_runs {ver : Ver} {g : Rows α} {threads : Nat} {ms : List Move} {s : State} {o : Res (List Nat)} (h : moves ver g threads ms s = some o) :
    Runs (Step ver g threads) s o := by
  induction ms generalizing s with
  | nil => cases h
  | cons m ms ih =>
    unfold moves at h
    split at h
    · rename_i s' hm
      exact .step (move_step hm) (ih h)
    · rename_i r hm
      cases h
      exact .done (move_step hm)
    · rename_i f hm
      cases h
      exact .fault (move_step hm)
    · cases h

/-- C87. With more threads than bins a push can fall outside the array of lists: two threads, one bin, the graph 0—1. -/
theorem lpcc_threads_oob (ver : Ver) : Runs (Step ver ([[(1, ())], [(0, ())]] : Rows Unit) 2) (start ([[(1, ())], [(0, ())]] : Rows Unit) 1) (.error .outOfBounds) :=
  moves_runs (ms := [.go, .task 0 1, .task 0 1, .task 0 1, .task 0 1, .task 0 1, .task 0 1, .task 0 1]) (by cases ver <;> decide)

example (ver : Ver) : Sure (Step ver Cc.exDir 4) (LeastSource Cc.exDir) (start Cc.exDir 32) :=
  lpcc_partial ver Cc.exDir 32 4 (by decide) (by decide) (by decide)

example (ver : Ver) : Sure (Step ver Cc.exSym 4) (fun comp => comp.length = 6 ∧ LeastLabels (Edge Cc.exSym) 6 comp ∧ ComponentLabels (Edge Cc.exSym) 6 comp) (start Cc.exSym 32) :=
  lpcc_symmetric_partial ver Cc.exSym 32 4 (by decide) CcExp.exSym_symm (by decide) (by decide)

end NW.LpExp
