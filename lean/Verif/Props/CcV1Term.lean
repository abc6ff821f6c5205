import Verif.Props.CcV1Exp

/-! # Property C88: `compute_connected_components_v1` ends -/

namespace NW.CcV1Exp
open Spec
open CcExp (par par_get par_set)

variable {α : Type}

/-- Pointers do not lead upwards. -/
def Down (N : Nat) (comp : List Nat) : Prop := ∀ x, x < N → par comp x ≤ x

/-- What is known about a task of the loop over the edges. -/
def HookOk : Pc → Prop
  | .idle | .mark | .readV _ _ _ | .head _ _ _ | .next0 _ _ _ | .next1 _ _ _ | .next2 _ _ _ => True
  | .high _ h l | .arg _ h l _ => l < h
  | .cas _ h l _ x => l < h ∧ x ≤ l
  | _ => False

/-- The work left: an edge counts twice until its write, and once until the flag is set. -/
def work (t : Task) : Nat := 2 * t.rest.length + match t.pc with
  | .idle => 0
  | .mark => 1
  | _ => 2

/-- The steps left until the next piece of work is done, if no one writes. -/
def dist (comp : List Nat) (t : Task) : Nat := match t.pc with
  | .idle => 13
  | .readV _ _ _ => 12
  | .head _ _ _ => 6
  | .high _ _ _ => 5
  | .arg _ h _ p => if par comp h = p then 4 else 11
  | .cas _ h _ p _ => if par comp h = p then 3 else 10
  | .next0 _ _ _ => 9
  | .next1 _ _ _ => 8
  | .next2 _ _ _ => 7
  | _ => 0

theorem Down.set {N : Nat} {comp : List Nat} (hl : comp.length = N) (h : Down N comp) {n b : Nat} (hn : n < N) (hb : b ≤ n) : Down N (comp.set n b) := by
  intro x hx
  rw [par_set hl hn]
  split
  · omega
  · exact h x hx

theorem hook_step {E : Nat → Nat → Prop} {N B : Nat} {comp comp' : List Nat} {change change' spurious : Bool} {t t' : Task} (hB : N ≤ B)
    (hE : ∀ u v, E u v → u < N ∧ v < N) (h : COk E N comp) (hd : Down N comp) (ht : TaskOk E N t) (hk : HookOk t.pc) (hf : t.finished = false)
    (e : taskStep B spurious comp change t = .ok (comp', change', t')) :
    Down N comp' ∧ HookOk t'.pc ∧ (spurious = false → work t' < work t ∨ work t' = work t ∧ comp' = comp ∧ dist comp t' < dist comp t) := by
  obtain ⟨pc, rest⟩ := t
  obtain ⟨hpc, hrest⟩ := ht
  cases pc with
  | idle =>
    cases rest with
    | nil => cases hf
    | cons x r =>
      obtain ⟨u, v⟩ := x
      have he := hrest (u, v) List.mem_cons_self
      obtain ⟨k1, -⟩ := h.get (self_in (hE u v he).1)
      simp only [taskStep] at e
      rw [k1] at e
      cases e
      exact ⟨hd, trivial, fun _ => Or.inr ⟨by simp [work]; omega, rfl, by simp [dist]⟩⟩
  | readV u v p1 =>
    obtain ⟨k1, -⟩ := h.get hpc.2
    simp only [taskStep] at e
    rw [k1] at e
    cases e
    exact ⟨hd, trivial, fun _ => Or.inr ⟨by simp [work], rfl, by simp [dist]⟩⟩
  | head u p1 p2 =>
    simp only [taskStep] at e
    by_cases c : p1 = p2
    · rw [if_pos c] at e
      cases e
      exact ⟨hd, trivial, fun _ => Or.inl (by simp [work])⟩
    · have hm : (((p1 + p2) % B + B - max p1 p2) % B) = min p1 p2 := CcExp.min_eq (Nat.lt_of_lt_of_le hpc.1.2.1 hB) (Nat.lt_of_lt_of_le hpc.2.2.1 hB)
      rw [if_neg c, hm] at e
      cases e
      exact ⟨hd, by simp only [HookOk]; omega, fun _ => Or.inr ⟨by simp [work], rfl, by simp [dist]⟩⟩
  | high u hi lo =>
    obtain ⟨k1, -⟩ := h.get hpc.1
    simp only [taskStep] at e
    rw [k1] at e
    cases e
    exact ⟨hd, hk, fun _ => Or.inr ⟨by simp [work], rfl, by simp [dist]⟩⟩
  | arg u hi lo ph =>
    simp only [taskStep] at e
    by_cases c : ph = lo
    · rw [if_pos c] at e
      cases e
      exact ⟨hd, trivial, fun _ => Or.inl (by simp [work])⟩
    · obtain ⟨k1, -⟩ := h.get hpc.2
      rw [if_neg c, k1] at e
      cases e
      refine ⟨hd, ⟨hk, hd _ hpc.2.2.1⟩, fun _ => Or.inr ⟨by simp [work], rfl, ?_⟩⟩
      simp only [dist]
      split <;> omega
  | cas u hi lo ph x =>
    obtain ⟨k1, -⟩ := h.get hpc.1
    simp only [taskStep] at e
    rw [k1, res_bind_ok] at e
    by_cases c : par comp hi = ph ∧ spurious = false
    · obtain ⟨k2, -⟩ := h.set hpc.1 hpc.2.2
      rw [if_pos c, k2] at e
      cases e
      exact ⟨hd.set h.len hpc.1.2.1 (by have := hk.1; have := hk.2; omega), trivial, fun _ => Or.inl (by simp [work])⟩
    · rw [if_neg c] at e
      cases e
      refine ⟨hd, trivial, fun hs => Or.inr ⟨by simp [work], rfl, ?_⟩⟩
      have : par comp hi ≠ ph := fun k => c ⟨k, hs⟩
      simp only [dist, if_neg this]
      omega
  | mark =>
    cases e
    exact ⟨hd, trivial, fun _ => Or.inl (by simp [work])⟩
  | next0 u hi lo =>
    obtain ⟨k1, -⟩ := h.get hpc.1
    simp only [taskStep] at e
    rw [k1] at e
    cases e
    exact ⟨hd, trivial, fun _ => Or.inr ⟨by simp [work], rfl, by simp [dist]⟩⟩
  | next1 u hi lo =>
    obtain ⟨k1, -⟩ := h.get hpc.1
    simp only [taskStep] at e
    rw [k1] at e
    cases e
    exact ⟨hd, trivial, fun _ => Or.inr ⟨by simp [work], rfl, by simp [dist]⟩⟩
  | next2 u lo p1 =>
    obtain ⟨k1, -⟩ := h.get hpc.1
    simp only [taskStep] at e
    rw [k1] at e
    cases e
    exact ⟨hd, trivial, fun _ => Or.inr ⟨by simp [work], rfl, by simp [dist]⟩⟩
  | cmpA | cmpB | cmpC | foo | bar | store | step | out | done => exact hk.elim

/-- What is known about a task of the final loop: where it moves on, the entry is not a root. -/
def FlatOk (comp : List Nat) : Pc → Prop
  | .cmpA _ _ | .out _ | .done _ => True
  | .cmpB _ m a => par comp m = m → a = m
  | .cmpC _ m a b => par comp m = m → a = m ∧ b = m
  | .foo _ m | .step _ m => par comp m < m
  | .bar _ m x | .store _ m x => par comp m < m ∧ x < m
  | _ => False

/-- The steps left are less than this. -/
def left (t : Task) : Nat := match t.pc with
  | .cmpA _ m => 8 * m + 8
  | .cmpB _ m _ => 8 * m + 7
  | .cmpC _ m _ _ => 8 * m + 6
  | .foo _ m => 8 * m + 5
  | .bar _ m _ => 8 * m + 4
  | .store _ m _ => 8 * m + 3
  | .step _ m => 8 * m + 2
  | .out _ => 1
  | _ => 0

/-- Writing below a vertex that is not a root makes no difference to what is known about tasks. -/
theorem FlatOk.set {N : Nat} {comp : List Nat} (hl : comp.length = N) {n b : Nat} (hn : n < N) (hr : par comp n < n) (hb : b < n) {pc : Pc}
    (h : FlatOk comp pc) : FlatOk (comp.set n b) pc := by
  cases pc <;> simp only [FlatOk, par_set hl hn] at h ⊢ <;> try exact h
  all_goals split <;> first | exact h | skip
  all_goals (rename_i c; subst c)
  · intro k; omega
  · intro k; omega
  · exact hb
  · exact ⟨hb, h.2⟩
  · exact ⟨hb, h.2⟩
  · exact hb

theorem flat_step {E : Nat → Nat → Prop} {N B : Nat} {comp comp' : List Nat} {change change' spurious : Bool} {t t' : Task}
    (h : COk E N comp) (hd : Down N comp) (ht : TaskOk E N t) (hk : FlatOk comp t.pc) (hf : t.finished = false)
    (e : taskStep B spurious comp change t = .ok (comp', change', t')) :
    Down N comp' ∧ FlatOk comp' t'.pc ∧ (∀ pc, FlatOk comp pc → FlatOk comp' pc) ∧ left t' < left t := by
  obtain ⟨pc, rest⟩ := t
  obtain ⟨hpc, hrest⟩ := ht
  cases pc with
  | cmpA n m =>
    obtain ⟨k1, -⟩ := h.get hpc
    simp only [taskStep] at e
    rw [k1] at e
    cases e
    exact ⟨hd, id, fun _ k => k, by simp [left]⟩
  | cmpB n m a =>
    obtain ⟨k1, -⟩ := h.get hpc
    simp only [taskStep] at e
    rw [k1] at e
    cases e
    exact ⟨hd, fun k => ⟨hk k, k⟩, fun _ k => k, by simp [left]⟩
  | cmpC n m a b =>
    obtain ⟨k1, -⟩ := h.get hpc.2
    simp only [taskStep] at e
    rw [k1, res_bind_ok] at e
    by_cases c : a ≠ par comp b
    · rw [if_pos c] at e
      cases e
      refine ⟨hd, ?_, fun _ k => k, by simp [left]⟩
      have := hd m hpc.1.2.1
      refine Nat.lt_of_le_of_ne this fun k => c ?_
      obtain ⟨k2, k3⟩ := hk k
      rw [k2, k3, k]
    · rw [if_neg c] at e
      cases e
      exact ⟨hd, trivial, fun _ k => k, by simp [left]⟩
  | foo n m =>
    obtain ⟨k1, -⟩ := h.get hpc
    simp only [taskStep] at e
    rw [k1] at e
    cases e
    exact ⟨hd, ⟨hk, hk⟩, fun _ k => k, by simp [left]⟩
  | bar n m x =>
    obtain ⟨k1, -⟩ := h.get hpc.2
    simp only [taskStep] at e
    rw [k1] at e
    cases e
    exact ⟨hd, ⟨hk.1, Nat.lt_of_le_of_lt (hd x hpc.2.2.1) hk.2⟩, fun _ k => k, by simp [left]⟩
  | store n m y =>
    obtain ⟨k1, -⟩ := h.set hpc.1 hpc.2
    simp only [taskStep] at e
    rw [k1] at e
    cases e
    refine ⟨hd.set h.len hpc.1.2.1 (Nat.le_of_lt hk.2), ?_, fun _ k => k.set h.len hpc.1.2.1 hk.1 hk.2, by simp [left]⟩
    simp only [FlatOk, par_set h.len hpc.1.2.1, if_true]
    exact hk.2
  | step n m =>
    obtain ⟨k1, -⟩ := h.get hpc
    simp only [taskStep] at e
    rw [k1] at e
    cases e
    refine ⟨hd, trivial, fun _ k => k, ?_⟩
    have : par comp m < m := hk
    simp only [left]
    omega
  | out n =>
    obtain ⟨k1, -⟩ := h.get (self_in hpc)
    simp only [taskStep] at e
    rw [k1] at e
    cases e
    exact ⟨hd, trivial, fun _ k => k, by simp [left]⟩
  | done r => cases hf
  | idle | mark | readV | head | next0 | next1 | next2 | high | arg | cas => exact hk.elim

/-- The invariant for termination. -/
def Inv' (N : Nat) : State → Prop
  | .head iter _ comp => Down N comp ∧ iter ≤ 2
  | .run iter _ comp ts => Down N comp ∧ iter < 2 ∧ ∀ t ∈ ts, HookOk t.pc
  | .flat comp ts => Down N comp ∧ ∀ t ∈ ts, FlatOk comp t.pc

/-- What gets smaller. -/
def meas : State → Nat × Nat × Nat
  | .head iter _ _ => (7 - 2 * iter, 0, 0)
  | .run iter _ comp ts => (6 - 2 * iter, (ts.map work).sum, (ts.map (dist comp)).sum)
  | .flat _ ts => (0, 0, (ts.map left).sum)

theorem sum_set_le {τ : Type} (w : τ → Nat) {ts : List τ} {i : Nat} {t t' : τ} (h : ts[i]? = some t) (hw : w t' = w t) :
    ((ts.set i t').map w).sum = (ts.map w).sum := by
  induction ts generalizing i with
  | nil => simp at h
  | cons x xs ih =>
    cases i with
    | zero =>
      simp at h; subst h
      simpa using hw
    | succ i =>
      simp at h
      have := ih h
      simpa using this

abbrev mlt : Nat × Nat × Nat → Nat × Nat × Nat → Prop := Prod.Lex (· < ·) (Prod.Lex (· < ·) (· < ·))

theorem mlt_wf : WellFounded mlt :=
  (Prod.lex ⟨_, Nat.lt_wfRel.wf⟩ (Prod.lex ⟨_, Nat.lt_wfRel.wf⟩ ⟨_, Nat.lt_wfRel.wf⟩)).wf

theorem inv_step' {g : Rows α} {weak : Bool} {B : Nat} (hg : InRange g) (hB : g.length ≤ B) {s s' : State} (hI : Inv (Edge g) g.length s)
    (hJ : Inv' g.length s) (h : Step weak B g s (.ok (.inl s'))) : Inv' g.length s' ∧ (weak = false → mlt (meas s') (meas s)) := by
  have hE : ∀ u v, Edge g u v → u < g.length ∧ v < g.length := fun u v h => ⟨h.src_lt, hg u v h⟩
  generalize ho : (Except.ok (Sum.inl s') : Res (State ⊕ List Nat)) = o at h
  cases h with
  | @go iter comp h =>
    cases ho
    refine ⟨⟨hJ.1, h, fun t ht => ?_⟩, fun _ => Prod.Lex.left _ _ (by omega)⟩
    obtain ⟨u, -, rfl⟩ := List.mem_map.1 ht
    exact trivial
  | @leave iter change comp h =>
    cases ho
    refine ⟨⟨hJ.1, fun t ht => ?_⟩, fun _ => Prod.Lex.left _ _ (by have := hJ.2; omega)⟩
    obtain ⟨u, -, rfl⟩ := List.mem_map.1 ht
    exact trivial
  | @task iter change comp ts i t sp hi hf hs =>
    obtain ⟨h1, h2⟩ := hI
    obtain ⟨j1, j2, j3⟩ := hJ
    have hm := List.mem_of_getElem? hi
    obtain ⟨c', ch', t', k1, -, -, -⟩ := task_ok (change := change) (spurious := sp) hB hE h1 (h2 t hm)
    obtain ⟨m1, m2, m3⟩ := hook_step hB hE h1 j1 (h2 t hm) (j3 t hm) hf k1
    rw [k1] at ho
    cases ho
    refine ⟨⟨m1, j2, fun x hx => ?_⟩, fun hw => ?_⟩
    · rcases List.mem_or_eq_of_mem_set hx with k | rfl
      · exact j3 x k
      · exact m2
    · have : sp = false := by cases sp with
        | false => rfl
        | true => have := hs rfl; rw [hw] at this; cases this
      rcases m3 this with k | ⟨k, rfl, k2⟩
      · exact Prod.Lex.right _ (Prod.Lex.left _ _ (sum_map_set_lt _ hi k))
      · simp only [meas]
        rw [sum_set_le work hi k]
        exact Prod.Lex.right _ (Prod.Lex.right _ (sum_map_set_lt _ hi k2))
  | join hf =>
    cases ho
    exact ⟨⟨hJ.1, hJ.2.1⟩, fun _ => Prod.Lex.left _ _ (by have := hJ.2.1; omega)⟩
  | @fin comp ts i t sp hi hf hs =>
    obtain ⟨h1, h2, -, -⟩ := hI
    obtain ⟨j1, j2⟩ := hJ
    have hm := List.mem_of_getElem? hi
    obtain ⟨c', ch', t', k1, -, -, -⟩ := task_ok (change := false) (spurious := sp) hB hE h1 (h2 t hm)
    obtain ⟨m1, m2, m3, m4⟩ := flat_step h1 j1 (h2 t hm) (j2 t hm) hf k1
    rw [k1] at ho
    cases ho
    refine ⟨⟨m1, fun x hx => ?_⟩, fun _ => Prod.Lex.right _ (Prod.Lex.right _ (sum_map_set_lt _ hi m4))⟩
    rcases List.mem_or_eq_of_mem_set hx with k | rfl
    · exact m3 _ (j2 x k)
    · exact m2
  | done => cases ho

theorem start_inv' (g : Rows α) : Inv' g.length (start g) := by
  refine ⟨fun x hx => ?_, by omega⟩
  rw [par, List.getD_eq_getElem?_getD, List.getElem?_range hx]; exact Nat.le_refl _

theorem can_step (B : Nat) (g : Rows α) (weak : Bool) (s : State) : ∃ o, Step weak B g s o := by
  have h := seqMove_step B g s
  generalize seqMove B g s = o at h
  cases h with
  | go h => exact ⟨_, .go h⟩
  | leave h => exact ⟨_, .leave h⟩
  | task hi hf hs => exact ⟨_, .task hi hf fun k => by cases hs k⟩
  | join hf => exact ⟨_, .join hf⟩
  | fin hi hf hs => exact ⟨_, .fin hi hf fun k => by cases hs k⟩
  | done hf => exact ⟨_, .done hf⟩

theorem sure_from {g : Rows α} {B : Nat} (hg : InRange g) (hB : g.length ≤ B) {s : State} (hI : Inv (Edge g) g.length s) (hJ : Inv' g.length s) :
    Sure (Step false B g) (Sound (Edge g) g.length) s := by
  refine Sure.of_inv mlt_wf meas (fun s => Inv (Edge g) g.length s ∧ Inv' g.length s) (fun s _ => can_step B g false s) ?_ s ⟨hI, hJ⟩
  rintro s o ⟨h1, h2⟩ hs
  rcases inv_step hg hB h1 hs with ⟨s', rfl, k⟩ | ⟨r, rfl, k⟩
  · obtain ⟨m1, m2⟩ := inv_step' hg hB h1 h2 hs
    exact Or.inl ⟨s', rfl, ⟨k, m1⟩, m2 rfl⟩
  · exact Or.inr ⟨r, rfl, k⟩

/-- Equal labels mean that the vertices are connected. -/
theorem Sound.conn {E : Nat → Nat → Prop} {N : Nat} {res : List Nat} (hs : Sound E N res) {x y : Nat} (hx : x < N) (he : res[x]? = res[y]?) : Conn E x y := by
  obtain ⟨l, hx'⟩ : ∃ l, res[x]? = some l := ⟨_, List.getElem?_eq_getElem (by rw [hs.1]; exact hx)⟩
  exact (hs.2 x _ hx').2.trans (hs.2 y _ (by rw [← he, hx'])).2.symm

/-- C88. If no compare-and-swap fails without cause, `compute_connected_components_v1` ends without a fault under every schedule, and labels each vertex with a
vertex of its own component, so that vertices with equal labels are connected.  (Missing: that connected vertices have equal labels, which is false.) -/
theorem ccv1_ends_partial (g : Rows α) (B : Nat) (hg : InRange g) (hB : g.length ≤ B) :
    Sure (Step false B g) (fun res => Sound (Edge g) g.length res ∧ ∀ x y, x < g.length → y < g.length → res[x]? = res[y]? → Conn (Edge g) x y) (start g) :=
  (sure_from hg hB (start_inv g) (start_inv' g)).mono fun _ hs => ⟨hs, fun _ _ hx _ he => hs.conn hx he⟩

/-- C88. The function can run for ever only if compare-and-swaps fail without cause again and again: in an infinite run there is no last such failure. -/
theorem ccv1_infinite_run (g : Rows α) (B : Nat) (hg : InRange g) (hB : g.length ≤ B) (f : Nat → State) (h0 : f 0 = start g)
    (hf : ∀ i, Step true B g (f i) (.ok (.inl (f (i + 1))))) (N : Nat) : ∃ i, N ≤ i ∧ ¬ Step false B g (f i) (.ok (.inl (f (i + 1)))) := by
  have hI : ∀ i, Inv (Edge g) g.length (f i) ∧ Inv' g.length (f i) := by
    intro i
    induction i with
    | zero => rw [h0]; exact ⟨start_inv g, start_inv' g⟩
    | succ i ih =>
      refine ⟨?_, (inv_step' hg hB ih.1 ih.2 (hf i)).1⟩
      rcases inv_step hg hB ih.1 (hf i) with ⟨s', k, h⟩ | ⟨_, k, -⟩
      · cases k; exact h
      · cases k
  refine Classical.byContradiction fun hn => ?_
  refine (sure_from hg hB (hI N).1 (hI N).2).no_infinite_run (fun i => f (N + i)) rfl fun i => ?_
  refine Classical.byContradiction fun k => hn ⟨N + i, Nat.le_add_right _ _, k⟩

/-- Where the thread of vertex 0 stands in its endless loop. -/
def stuckPc : Nat → Pc
  | 0 => .high 0 1 0
  | 1 => .arg 0 1 0 1
  | 2 => .cas 0 1 0 1 0
  | 3 => .next0 0 1 0
  | 4 => .next1 0 1 0
  | 5 => .next2 0 0 1
  | _ => .head 0 1 0

/-- A single edge, whose compare-and-swap fails again and again. -/
def exStuck : Nat → State
  | 0 => start [[(1, ())], []]
  | 1 => .run 0 false [0, 1] (hooks [[(1, ())], []])
  | 2 => .run 0 false [0, 1] [⟨.readV 0 1 0, []⟩, ⟨.idle, []⟩]
  | 3 => .run 0 false [0, 1] [⟨.head 0 0 1, []⟩, ⟨.idle, []⟩]
  | n + 4 => .run 0 false [0, 1] [⟨stuckPc (n % 7), []⟩, ⟨.idle, []⟩]

theorem stuck_step {t t' : Task} (hf : t.finished = false) (sp : Bool) (h : taskStep (2 ^ 32) sp [0, 1] false t = .ok ([0, 1], false, t')) :
    Step true (2 ^ 32) ([[(1, ())], []] : Rows Unit) (.run 0 false [0, 1] [t, ⟨.idle, []⟩]) (.ok (.inl (.run 0 false [0, 1] [t', ⟨.idle, []⟩]))) := by
  have := Step.task (weak := true) (B := 2 ^ 32) (g := ([[(1, ())], []] : Rows Unit)) (iter := 0) (change := false) (comp := [0, 1]) (ts := [t, ⟨.idle, []⟩]) (i := 0)
    (spurious := sp) rfl hf (fun _ => rfl)
  rw [h] at this
  exact this

/-- The hypotheses of `ccv1_infinite_run` can be met: with endless failures of the compare-and-swap the function does run for ever. -/
theorem ccv1_may_run_forever : ∀ i, Step true (2 ^ 32) [[(1, ())], []] (exStuck i) (.ok (.inl (exStuck (i + 1))))
  | 0 => .go (by decide)
  | 1 => stuck_step rfl false rfl
  | 2 => stuck_step rfl false rfl
  | 3 => stuck_step rfl false rfl
  | n + 4 => by
    have key : ∀ k, k < 7 → Step true (2 ^ 32) ([[(1, ())], []] : Rows Unit) (.run 0 false [0, 1] [⟨stuckPc k, []⟩, ⟨.idle, []⟩])
        (.ok (.inl (.run 0 false [0, 1] [⟨stuckPc ((k + 1) % 7), []⟩, ⟨.idle, []⟩]))) := by
      intro k hk
      match k, hk with
      | 0, _ => exact stuck_step rfl true rfl
      | 1, _ => exact stuck_step rfl true rfl
      | 2, _ => exact stuck_step rfl true rfl
      | 3, _ => exact stuck_step rfl true rfl
      | 4, _ => exact stuck_step rfl true rfl
      | 5, _ => exact stuck_step rfl true rfl
      | 6, _ => exact stuck_step rfl true rfl
    have := key (n % 7) (Nat.mod_lt _ (by decide))
    rw [show (n % 7 + 1) % 7 = (n + 1) % 7 by omega] at this
    exact this

/-- The hypotheses of `ccv1_ends_partial` hold for the path of `ccv1_wrong`. -/
example : ∃ res, Runs (Step false (2 ^ 32) exPath) (start exPath) (.ok res) ∧ Sound (Edge exPath) 6 res := by
  obtain ⟨r, h1, h2⟩ := (ccv1_ends_partial exPath (2 ^ 32) (by decide) (by decide)).exists_run
  exact ⟨r, h1, h2.1⟩

/-- And those of `ccv1_infinite_run` for that infinite run. -/
example (N : Nat) : ∃ i, N ≤ i ∧ ¬ Step false (2 ^ 32) [[(1, ())], []] (exStuck i) (.ok (.inl (exStuck (i + 1)))) :=
  ccv1_infinite_run _ _ (by decide) (by decide) exStuck rfl ccv1_may_run_forever N

end NW.CcV1Exp
