import Verif.Model.CcV1Exp
import Verif.Lemmas.CcExp
import Verif.Props.Cc

/-! # Property C88: `compute_connected_components_v1` -/

namespace NW.CcV1Exp
open Spec
open CcExp (par par_get par_set)

variable {α : Type}

/-- `r` is a vertex of the component of `u`. -/
def In (E : Nat → Nat → Prop) (N u r : Nat) : Prop := u < N ∧ r < N ∧ Conn E u r

/-- Pointers stay within components. -/
structure COk (E : Nat → Nat → Prop) (N : Nat) (comp : List Nat) : Prop where
  len : comp.length = N
  sound : ∀ x, x < N → par comp x < N ∧ Conn E x (par comp x)

/-- What is known about a task. -/
def PcOk (E : Nat → Nat → Prop) (N : Nat) : Pc → Prop
  | .idle | .mark => True
  | .readV u v p1 => In E N u p1 ∧ In E N u v
  | .head u p1 p2 => In E N u p1 ∧ In E N u p2
  | .high u h l | .next0 u h l | .next1 u h l | .next2 u h l => In E N u h ∧ In E N u l
  | .arg u h l _ => In E N u h ∧ In E N u l
  | .cas u h l _ x => In E N u h ∧ In E N u l ∧ In E N u x
  | .cmpA n m | .step n m | .foo n m => In E N n m
  | .cmpB n m _ => In E N n m
  | .cmpC n m _ b => In E N n m ∧ In E N n b
  | .bar n m x | .store n m x => In E N n m ∧ In E N n x
  | .out n => n < N
  | .done _ => True

/-- The vertex whose result the task computes. -/
def owner : Pc → Option Nat
  | .cmpA n _ | .step n _ | .foo n _ | .cmpB n _ _ | .cmpC n _ _ _ | .bar n _ _ | .store n _ _ | .out n => some n
  | _ => none

structure TaskOk (E : Nat → Nat → Prop) (N : Nat) (t : Task) : Prop where
  pc : PcOk E N t.pc
  rest : ∀ e ∈ t.rest, E e.1 e.2

theorem COk.get {E : Nat → Nat → Prop} {N : Nat} {comp : List Nat} (h : COk E N comp) {u r : Nat} (hi : In E N u r) :
    vget comp r = .ok (par comp r) ∧ In E N u (par comp r) :=
  ⟨par_get h.len hi.2.1, hi.1, (h.sound r hi.2.1).1, hi.2.2.trans (h.sound r hi.2.1).2⟩

theorem COk.set {E : Nat → Nat → Prop} {N : Nat} {comp : List Nat} (h : COk E N comp) {u r v : Nat} (hi : In E N u r) (hv : In E N u v) :
    vset comp r v = .ok (comp.set r v) ∧ COk E N (comp.set r v) := by
  refine ⟨vset_of_lt (by rw [h.len]; exact hi.2.1), by rw [List.length_set]; exact h.len, fun x hx => ?_⟩
  rw [par_set h.len hi.2.1]
  split
  · rename_i e; subst e; exact ⟨hv.2.1, hi.2.2.symm.trans hv.2.2⟩
  · exact h.sound x hx

theorem self_in {E : Nat → Nat → Prop} {N n : Nat} (h : n < N) : In E N n n := ⟨h, h, .refl _⟩

/-- The result a task promises. -/
def Promise (E : Nat → Nat → Prop) (N n : Nat) (t : Task) : Prop := owner t.pc = some n ∨ ∃ r, t.pc = .done r ∧ In E N n r

theorem task_ok {E : Nat → Nat → Prop} {N B : Nat} {comp : List Nat} {change spurious : Bool} {t : Task} (hB : N ≤ B) (hE : ∀ u v, E u v → u < N ∧ v < N)
    (h : COk E N comp) (ht : TaskOk E N t) :
    ∃ comp' change' t', taskStep B spurious comp change t = .ok (comp', change', t') ∧ COk E N comp' ∧ TaskOk E N t' ∧
      ∀ n, Promise E N n t → Promise E N n t' := by
  obtain ⟨pc, rest⟩ := t
  obtain ⟨hpc, hrest⟩ := ht
  cases pc with
  | idle =>
    cases rest with
    | nil => exact ⟨_, _, _, rfl, h, ⟨trivial, hrest⟩, fun _ k => k⟩
    | cons e r =>
      obtain ⟨u, v⟩ := e
      have he := hrest (u, v) List.mem_cons_self
      obtain ⟨hu, hv⟩ := hE u v he
      obtain ⟨k1, k2⟩ := h.get (self_in hu)
      refine ⟨comp, change, ⟨.readV u v (par comp u), r⟩, ?_, h, ⟨⟨k2, hu, hv, .of he⟩, fun e he => hrest e (List.mem_cons_of_mem _ he)⟩, ?_⟩
      · simp only [taskStep]; rw [k1]; rfl
      · rintro n (k | ⟨r, k, -⟩) <;> cases k
  | readV u v p1 =>
    obtain ⟨k1, k2⟩ := h.get hpc.2
    refine ⟨comp, change, ⟨.head u p1 (par comp v), rest⟩, ?_, h, ⟨⟨hpc.1, k2⟩, hrest⟩, ?_⟩
    · simp only [taskStep]; rw [k1]; rfl
    · rintro n (k | ⟨r, k, -⟩) <;> cases k
  | head u p1 p2 =>
    by_cases c : p1 = p2
    · refine ⟨comp, change, ⟨.idle, rest⟩, ?_, h, ⟨trivial, hrest⟩, ?_⟩
      · simp only [taskStep]; rw [if_pos c]; rfl
      · rintro n (k | ⟨r, k, -⟩) <;> cases k
    · have hm : (((p1 + p2) % B + B - max p1 p2) % B) = min p1 p2 := CcExp.min_eq (Nat.lt_of_lt_of_le hpc.1.2.1 hB) (Nat.lt_of_lt_of_le hpc.2.2.1 hB)
      refine ⟨comp, change, ⟨.high u (max p1 p2) (min p1 p2), rest⟩, ?_, h, ⟨?_, hrest⟩, ?_⟩
      · simp only [taskStep]; rw [if_neg c, hm]; rfl
      · rcases Nat.le_total p1 p2 with d | d
        · rw [Nat.max_eq_right d, Nat.min_eq_left d]; exact ⟨hpc.2, hpc.1⟩
        · rw [Nat.max_eq_left d, Nat.min_eq_right d]; exact hpc
      · rintro n (k | ⟨r, k, -⟩) <;> cases k
  | high u hi lo =>
    obtain ⟨k1, -⟩ := h.get hpc.1
    refine ⟨comp, change, ⟨.arg u hi lo (par comp hi), rest⟩, ?_, h, ⟨?_, hrest⟩, ?_⟩
    · simp only [taskStep]; rw [k1]; rfl
    · exact hpc
    · rintro n (k | ⟨r, k, -⟩) <;> cases k
  | arg u hi lo ph =>
    by_cases c : ph = lo
    · refine ⟨comp, change, ⟨.mark, rest⟩, ?_, h, ⟨trivial, hrest⟩, ?_⟩
      · simp only [taskStep]; rw [if_pos c]; rfl
      · rintro n (k | ⟨r, k, -⟩) <;> cases k
    · obtain ⟨k1, k2⟩ := h.get hpc.2
      refine ⟨comp, change, ⟨.cas u hi lo ph (par comp lo), rest⟩, ?_, h, ⟨⟨hpc.1, hpc.2, k2⟩, hrest⟩, ?_⟩
      · simp only [taskStep]; rw [if_neg c, k1]; rfl
      · rintro n (k | ⟨r, k, -⟩) <;> cases k
  | cas u hi lo ph x =>
    obtain ⟨k1, -⟩ := h.get hpc.1
    by_cases c : par comp hi = ph ∧ spurious = false
    · obtain ⟨k2, k3⟩ := h.set hpc.1 hpc.2.2
      refine ⟨_, change, ⟨.mark, rest⟩, ?_, k3, ⟨trivial, hrest⟩, ?_⟩
      · simp only [taskStep]; rw [k1, res_bind_ok, if_pos c, k2]; rfl
      · rintro n (k | ⟨r, k, -⟩) <;> cases k
    · refine ⟨comp, change, ⟨.next0 u hi lo, rest⟩, ?_, h, ⟨⟨hpc.1, hpc.2.1⟩, hrest⟩, ?_⟩
      · simp only [taskStep]; rw [k1, res_bind_ok, if_neg c]; rfl
      · rintro n (k | ⟨r, k, -⟩) <;> cases k
  | mark => exact ⟨_, _, _, rfl, h, ⟨trivial, hrest⟩, by rintro n (k | ⟨r, k, -⟩) <;> cases k⟩
  | next0 u hi lo =>
    obtain ⟨k1, k2⟩ := h.get hpc.1
    refine ⟨comp, change, ⟨.next1 u (par comp hi) lo, rest⟩, ?_, h, ⟨⟨k2, hpc.2⟩, hrest⟩, ?_⟩
    · simp only [taskStep]; rw [k1]; rfl
    · rintro n (k | ⟨r, k, -⟩) <;> cases k
  | next1 u hi lo =>
    obtain ⟨k1, k2⟩ := h.get hpc.1
    refine ⟨comp, change, ⟨.next2 u lo (par comp hi), rest⟩, ?_, h, ⟨⟨hpc.2, k2⟩, hrest⟩, ?_⟩
    · simp only [taskStep]; rw [k1]; rfl
    · rintro n (k | ⟨r, k, -⟩) <;> cases k
  | next2 u lo p1 =>
    obtain ⟨k1, k2⟩ := h.get hpc.1
    refine ⟨comp, change, ⟨.head u p1 (par comp lo), rest⟩, ?_, h, ⟨⟨hpc.2, k2⟩, hrest⟩, ?_⟩
    · simp only [taskStep]; rw [k1]; rfl
    · rintro n (k | ⟨r, k, -⟩) <;> cases k
  | cmpA n m =>
    obtain ⟨k1, k2⟩ := h.get hpc
    refine ⟨comp, change, ⟨.cmpB n m (par comp m), rest⟩, ?_, h, ⟨hpc, hrest⟩, ?_⟩
    · simp only [taskStep]; rw [k1]; rfl
    · rintro n (k | ⟨r, k, -⟩)
      · exact Or.inl k
      · cases k
  | cmpB n m a =>
    obtain ⟨k1, k2⟩ := h.get hpc
    refine ⟨comp, change, ⟨.cmpC n m a (par comp m), rest⟩, ?_, h, ⟨⟨hpc, k2⟩, hrest⟩, ?_⟩
    · simp only [taskStep]; rw [k1]; rfl
    · rintro n (k | ⟨r, k, -⟩)
      · exact Or.inl k
      · cases k
  | cmpC n m a b =>
    obtain ⟨k1, k2⟩ := h.get hpc.2
    by_cases c : a ≠ par comp b
    · refine ⟨comp, change, ⟨.foo n m, rest⟩, ?_, h, ⟨hpc.1, hrest⟩, ?_⟩
      · simp only [taskStep]; rw [k1, res_bind_ok, if_pos c]; rfl
      · rintro n (k | ⟨r, k, -⟩)
        · exact Or.inl k
        · cases k
    · refine ⟨comp, change, ⟨.out n, rest⟩, ?_, h, ⟨hpc.1.1, hrest⟩, ?_⟩
      · simp only [taskStep]; rw [k1, res_bind_ok, if_neg c]; rfl
      · rintro n (k | ⟨r, k, -⟩)
        · exact Or.inl k
        · cases k
  | foo n m =>
    obtain ⟨k1, k2⟩ := h.get hpc
    refine ⟨comp, change, ⟨.bar n m (par comp m), rest⟩, ?_, h, ⟨⟨hpc, k2⟩, hrest⟩, ?_⟩
    · simp only [taskStep]; rw [k1]; rfl
    · rintro n (k | ⟨r, k, -⟩)
      · exact Or.inl k
      · cases k
  | bar n m x =>
    obtain ⟨k1, k2⟩ := h.get hpc.2
    refine ⟨comp, change, ⟨.store n m (par comp x), rest⟩, ?_, h, ⟨⟨hpc.1, k2⟩, hrest⟩, ?_⟩
    · simp only [taskStep]; rw [k1]; rfl
    · rintro n (k | ⟨r, k, -⟩)
      · exact Or.inl k
      · cases k
  | store n m y =>
    obtain ⟨k1, k2⟩ := h.set hpc.1 hpc.2
    refine ⟨_, change, ⟨.step n m, rest⟩, ?_, k2, ⟨hpc.1, hrest⟩, ?_⟩
    · simp only [taskStep]; rw [k1]; rfl
    · rintro n (k | ⟨r, k, -⟩)
      · exact Or.inl k
      · cases k
  | step n m =>
    obtain ⟨k1, k2⟩ := h.get hpc
    refine ⟨comp, change, ⟨.cmpA n (par comp m), rest⟩, ?_, h, ⟨k2, hrest⟩, ?_⟩
    · simp only [taskStep]; rw [k1]; rfl
    · rintro n (k | ⟨r, k, -⟩)
      · exact Or.inl k
      · cases k
  | out n =>
    obtain ⟨k1, k2⟩ := h.get (self_in hpc)
    refine ⟨comp, change, ⟨.done (par comp n), rest⟩, ?_, h, ⟨trivial, hrest⟩, ?_⟩
    · simp only [taskStep]; rw [k1]; rfl
    · rintro n (k | ⟨r, k, -⟩)
      · cases k
        exact Or.inr ⟨_, rfl, k2⟩
      · cases k
  | done r => exact ⟨_, _, _, rfl, h, ⟨trivial, hrest⟩, fun _ k => k⟩

/-- The whole program's invariant. -/
def Inv (E : Nat → Nat → Prop) (N : Nat) : State → Prop
  | .head _ _ comp => COk E N comp
  | .run _ _ comp ts => COk E N comp ∧ ∀ t ∈ ts, TaskOk E N t
  | .flat comp ts => COk E N comp ∧ (∀ t ∈ ts, TaskOk E N t) ∧ ts.length = N ∧ ∀ (n : Nat) (t : Task), ts[n]? = some t → Promise E N n t

/-- Every vertex has a label, which is a vertex of its component. -/
def Sound (E : Nat → Nat → Prop) (N : Nat) (res : List Nat) : Prop :=
  res.length = N ∧ ∀ (x l : Nat), res[x]? = some l → l < N ∧ Conn E x l

theorem tasks_set {E : Nat → Nat → Prop} {N : Nat} {ts : List Task} (h : ∀ t ∈ ts, TaskOk E N t) {i : Nat} {t' : Task} (ht : TaskOk E N t') :
    ∀ t ∈ ts.set i t', TaskOk E N t := by
  intro t hx
  rcases List.mem_or_eq_of_mem_set hx with k | rfl
  · exact h t k
  · exact ht

theorem inv_step {g : Rows α} {weak : Bool} {B : Nat} (hg : InRange g) (hB : g.length ≤ B) {s : State} {o : Res (State ⊕ List Nat)} (hI : Inv (Edge g) g.length s)
    (h : Step weak B g s o) : (∃ s', o = .ok (.inl s') ∧ Inv (Edge g) g.length s') ∨ ∃ r, o = .ok (.inr r) ∧ Sound (Edge g) g.length r := by
  have hE : ∀ u v, Edge g u v → u < g.length ∧ v < g.length := fun u v h => ⟨h.src_lt, hg u v h⟩
  cases h with
  | @go iter comp h =>
    refine Or.inl ⟨_, rfl, hI, ?_⟩
    intro t ht
    obtain ⟨u, -, rfl⟩ := List.mem_map.1 ht
    refine ⟨trivial, fun e he => ?_⟩
    obtain ⟨x, hx, rfl⟩ := List.mem_map.1 he
    exact Cc.edge_iff_entry.2 ⟨x, hx, rfl⟩
  | @leave iter change comp h =>
    refine Or.inl ⟨_, rfl, hI, ?_, by simp [finals], ?_⟩
    · intro t ht
      obtain ⟨n, hn, rfl⟩ := List.mem_map.1 ht
      exact ⟨self_in (by simpa using hn), nofun⟩
    · intro n t ht
      simp only [finals, List.getElem?_map, Option.map_eq_some_iff] at ht
      obtain ⟨k, hk, rfl⟩ := ht
      have := (List.getElem?_eq_some_iff.1 hk)
      obtain ⟨h1, h2⟩ := this
      rw [List.getElem_range] at h2
      subst h2
      exact Or.inl rfl
  | @task iter change comp ts i t sp hi hf _ =>
    obtain ⟨h1, h2⟩ := hI
    obtain ⟨c', ch', t', k1, k2, k3, -⟩ := task_ok (change := change) (spurious := sp) hB hE h1 (h2 t (List.mem_of_getElem? hi))
    rw [k1]
    exact Or.inl ⟨_, rfl, k2, tasks_set h2 k3⟩
  | join hf => exact Or.inl ⟨_, rfl, hI.1⟩
  | @fin comp ts i t sp hi hf _ =>
    obtain ⟨h1, h2, h3, h4⟩ := hI
    obtain ⟨c', ch', t', k1, k2, k3, k4⟩ := task_ok (change := false) (spurious := sp) hB hE h1 (h2 t (List.mem_of_getElem? hi))
    rw [k1]
    refine Or.inl ⟨_, rfl, k2, tasks_set h2 k3, by rw [List.length_set]; exact h3, fun n x hx => ?_⟩
    rcases getElem?_set_cases hx with ⟨rfl, rfl⟩ | ⟨-, k⟩
    · exact k4 i (h4 i t hi)
    · exact h4 n x k
  | @done comp ts hf =>
    obtain ⟨h1, h2, h3, h4⟩ := hI
    refine Or.inr ⟨_, rfl, by simpa using h3, fun x l hl => ?_⟩
    rw [List.getElem?_map, Option.map_eq_some_iff] at hl
    obtain ⟨t, ht, rfl⟩ := hl
    have hfin := hf t (List.mem_of_getElem? ht)
    rcases h4 x t ht with k | ⟨r, k, k2⟩
    · exfalso
      obtain ⟨pc, rest⟩ := t
      cases pc <;> first | (cases hfin; done) | cases k
    · simp only [result, k]
      exact k2.2

theorem runs_inv {g : Rows α} {weak : Bool} {B : Nat} (hg : InRange g) (hB : g.length ≤ B) {s : State} {o : Res (List Nat)} (h : Runs (Step weak B g) s o)
    (hI : Inv (Edge g) g.length s) : ∃ r, o = .ok r ∧ Sound (Edge g) g.length r := by
  induction h with
  | done hs =>
    rcases inv_step hg hB hI hs with ⟨_, k, -⟩ | ⟨r, k, h⟩
    · cases k
    · cases k; exact ⟨_, rfl, h⟩
  | fault hs => rcases inv_step hg hB hI hs with ⟨_, k, -⟩ | ⟨_, k, -⟩ <;> cases k
  | step hs _ ih =>
    rcases inv_step hg hB hI hs with ⟨s', k, h⟩ | ⟨_, k, -⟩
    · cases k; exact ih h
    · cases k

theorem start_inv (g : Rows α) : Inv (Edge g) g.length (start g) := by
  have hp : ∀ x, x < g.length → par (List.range g.length) x = x := by
    intro x c
    rw [par, List.getD_eq_getElem?_getD, List.getElem?_range c]; rfl
  exact ⟨by simp, fun x hx => by rw [hp x hx]; exact ⟨hx, .refl _⟩⟩

/-- C88. `compute_connected_components_v1`: for every graph and every schedule, a run that ends does so without a fault, and labels each vertex with a vertex of
its own component; so vertices with equal labels are connected.  (Missing: that a run ends, see `ccv1_ends_partial`, and that connected vertices have equal labels, which is false.) -/
theorem ccv1_sound_partial (g : Rows α) (weak : Bool) (B : Nat) (hg : InRange g) (hB : g.length ≤ B) {o : Res (List Nat)} (h : Runs (Step weak B g) (start g) o) :
    ∃ res, o = .ok res ∧ Sound (Edge g) g.length res ∧
      ∀ x y, x < g.length → y < g.length → res[x]? = res[y]? → Conn (Edge g) x y := by
  obtain ⟨res, rfl, hs⟩ := runs_inv hg hB h (start_inv g)
  refine ⟨res, rfl, hs, fun x y hx hy he => ?_⟩
  obtain ⟨l, hx'⟩ : ∃ l, res[x]? = some l := ⟨_, List.getElem?_eq_getElem (by rw [hs.1]; exact hx)⟩
  have hy' : res[y]? = some l := by rw [← he, hx']
  exact (hs.2 x _ hx').2.trans (hs.2 y _ hy').2.symm

/-! ## The wrong result -/

/-- One thread runs everything in order. -/
def seqMove (B : Nat) (g : Rows α) : State → Res (State ⊕ List Nat)
  | .head iter change comp =>
    if iter < 2 ∧ change = true then .ok (.inl (.run iter false comp (hooks g))) else .ok (.inl (.flat comp (finals g)))
  | .run iter change comp ts =>
    match ts.findIdx? (fun t => !t.finished) with
    | some i => match ts[i]? with
      | some t => (taskStep B false comp change t).map fun x => .inl (.run iter x.2.1 x.1 (ts.set i x.2.2))
      | none => .ok (.inl (.head (iter + 1) change comp))
    | none => .ok (.inl (.head (iter + 1) change comp))
  | .flat comp ts =>
    match ts.findIdx? (fun t => !t.finished) with
    | some i => match ts[i]? with
      | some t => (taskStep B false comp false t).map fun x => .inl (.flat x.1 (ts.set i x.2.2))
      | none => .ok (.inr (ts.map result))
    | none => .ok (.inr (ts.map result))

theorem findIdx_some {ts : List Task} {i : Nat} (h : ts.findIdx? (fun t => !t.finished) = some i) : ∃ t, ts[i]? = some t ∧ t.finished = false := by
  obtain ⟨h1, h2, -⟩ := List.findIdx?_eq_some_iff_getElem.1 h
  exact ⟨ts[i], List.getElem?_eq_getElem h1, by simpa using h2⟩

theorem findIdx_none {ts : List Task} (h : ts.findIdx? (fun t => !t.finished) = none) : ∀ t ∈ ts, t.finished = true := by
  intro t ht
  have := List.findIdx?_eq_none_iff.1 h t ht
  simpa using this

theorem seqMove_step (B : Nat) (g : Rows α) (s : State) : Step false B g s (seqMove B g s) := by
  cases s with
  | head iter change comp =>
    simp only [seqMove]
    split
    · rename_i h
      rw [h.2]
      exact .go h.1
    · rename_i h
      refine .leave ?_
      by_cases c : iter < 2
      · exact Or.inr (by simpa [c] using h)
      · exact Or.inl c
  | run iter change comp ts =>
    simp only [seqMove]
    split
    · rename_i i h
      obtain ⟨t, h1, h2⟩ := findIdx_some h
      rw [h1]
      exact .task h1 h2 nofun
    · rename_i h
      exact .join (findIdx_none h)
  | flat comp ts =>
    simp only [seqMove]
    split
    · rename_i i h
      obtain ⟨t, h1, h2⟩ := findIdx_some h
      rw [h1]
      exact .fin h1 h2 nofun
    · rename_i h
      exact .done (findIdx_none h)

/-- Runs `k` steps of the thread. -/
def seqRun (B : Nat) (g : Rows α) : Nat → State → Option (Res (List Nat))
  | 0, _ => none
  | k + 1, s => match seqMove B g s with
    | .ok (.inl s') => seqRun B g k s'
    | .ok (.inr r) => some (.ok r)
    | .error f => some (.error f)

theorem seqRun_runs {B : Nat} {g : Rows α} {k : Nat} {s : State} {o : Res (List Nat)} (h : seqRun B g k s = some o) : Runs (Step false B g) s o := by
  induction k generalizing s with
  | zero => cases h
  | succ k ih =>
    have hs := seqMove_step B g s
    unfold seqRun at h
    split at h
    · rename_i s' e
      rw [e] at hs
      exact .step hs (ih h)
    · rename_i r e
      rw [e] at hs
      cases h
      exact .done hs
    · rename_i f e
      rw [e] at hs
      cases h
      exact .fault hs

/-- The path 0—3—4—2 with 4—5—1. -/
def exPath : Rows Unit := [[(3, ())], [(5, ())], [(4, ())], [(0, ()), (4, ())], [(2, ()), (3, ()), (5, ())], [(1, ()), (4, ())]]

/-- C88. `compute_connected_components_v1` gives the ends of an edge different labels, even with a single thread and without spurious failures, on a connected
symmetric graph of six vertices. -/
theorem ccv1_wrong : InRange exPath ∧ (∀ u v, Edge exPath u v → Edge exPath v u) ∧
    Runs (Step false (2 ^ 32) exPath) (start exPath) (.ok [0, 1, 1, 0, 1, 1]) ∧ Edge exPath 3 4 := by
  refine ⟨by decide, fun u v h => ?_, seqRun_runs (k := 300) (by decide +kernel), by decide⟩
  have hu := h.src_lt
  have : ∀ u < 6, ∀ v ∈ nbrs exPath u, Edge exPath v u := by decide
  exact this u hu v h

/-- The hypotheses of `ccv1_sound_partial` hold for a run on this graph. -/
example : Sound (Edge exPath) 6 [0, 1, 1, 0, 1, 1] := by
  obtain ⟨r, h1, h2, -⟩ := ccv1_sound_partial exPath false (2 ^ 32) (by decide) (by decide) ccv1_wrong.2.2.1
  cases h1
  exact h2

end NW.CcV1Exp
