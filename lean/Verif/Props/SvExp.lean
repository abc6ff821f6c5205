import Verif.Model.SvExp
import Verif.Lemmas.CcExp
import Verif.Props.Cc
import Verif.Props.CcExp

/-! # Property C86: the Shiloach–Vishkin loops -/

namespace NW.SvExp
open Spec Forest CcExp

variable {α : Type}

/-! ## Counting roots -/

theorem countP_lt {p q : Nat → Bool} {l : List Nat} (h : ∀ x ∈ l, q x = true → p x = true) {x : Nat} (hx : x ∈ l) (hp : p x = true) (hq : q x = false) :
    l.countP q < l.countP p := by
  induction l with
  | nil => cases hx
  | cons y ys ih =>
    have hys : ∀ x ∈ ys, q x = true → p x = true := fun x hx => h x (List.mem_cons_of_mem _ hx)
    have hle : ys.countP q ≤ ys.countP p := List.countP_mono_left hys
    rw [List.countP_cons, List.countP_cons]
    rcases List.mem_cons.1 hx with rfl | hx
    · rw [hp, hq]; simp; omega
    · have := ih hys hx
      have hy := h y (List.mem_cons_self)
      cases hqy : q y with
      | false => simp; omega
      | true => rw [hy hqy]; simp; omega

/-- The number of vertices that point to themselves. -/
def roots (N : Nat) (comp : List Nat) : Nat := (List.range N).countP fun x => decide (par comp x = x)

theorem roots_lt {N : Nat} {comp comp' : List Nat} (h : ∀ x, par comp x ≠ x → par comp' x ≠ x) {x : Nat} (hx : x < N) (h1 : par comp x = x)
    (h2 : par comp' x ≠ x) : roots N comp' < roots N comp := by
  refine countP_lt (x := x) ?_ (by simpa using hx) (by simpa using h1) (by simpa using h2)
  intro y _ hy
  simp only [decide_eq_true_eq] at *
  by_cases c : par comp y = y
  · exact c
  · exact absurd hy (h y c)

theorem roots_le (N : Nat) (comp : List Nat) : roots N comp ≤ N := by
  have := List.countP_le_length (p := fun x => decide (par comp x = x)) (l := List.range N)
  simpa [roots] using this

theorem roots_pos {N : Nat} {comp : List Nat} (hN : 0 < N) (h : par comp 0 ≤ 0) : 0 < roots N comp :=
  List.countP_pos_iff.2 ⟨0, by simpa using hN, by simpa using h⟩

theorem roots_eq {N : Nat} {comp comp' : List Nat} (h : ∀ x, x < N → (par comp x = x ↔ par comp' x = x)) : roots N comp = roots N comp' := by
  refine List.countP_congr fun x hx => ?_
  simpa using h x (by simpa using hx)

/-! ## The invariant -/

variable {E : Nat → Nat → Prop} {N : Nat}

/-- The edges a task has not finished with. -/
def Task.pending (t : Task) : List (Nat × Nat) :=
  match t.pc with
  | .idle => t.rest
  | .readV u v _ | .test u v _ _ | .mark u v _ _ => (u, v) :: t.rest
  | .store _ _ => t.rest

/-- What is known about a task in a round begun with `comp0`. -/
def PcOk (E : Nat → Nat → Prop) (N : Nat) (comp0 : List Nat) (change : Bool) : Pc → Prop
  | .idle => True
  | .readV u v cu => E u v ∧ cu < N ∧ Conn E u cu ∧ (change = false → cu = par comp0 u)
  | .test u v h l => E u v ∧ l < h ∧ h < N ∧ Conn E h l ∧ (change = false → par comp0 h = h)
  | .mark _ _ h l => l < h ∧ h < N ∧ Conn E h l ∧ par comp0 h = h
  | .store h l => l < h ∧ h < N ∧ Conn E h l ∧ par comp0 h = h ∧ change = true

/-- A state of the parallel loop. -/
structure RInv (E : Nat → Nat → Prop) (N : Nat) (comp0 : List Nat) (change : Bool) (comp : List Nat) (ts : List Task) : Prop where
  base : Base E N comp
  keep : ∀ x, par comp0 x ≠ x → par comp x ≠ x
  pcs : ∀ t ∈ ts, PcOk E N comp0 change t.pc
  rest : ∀ t ∈ ts, ∀ e ∈ t.rest, E e.1 e.2
  same : change = false → comp = comp0
  seen : change = false → ∀ u v, E u v → par comp0 u = par comp0 v ∨ ∃ t ∈ ts, (u, v) ∈ t.pending
  lost : change = true → (∃ x, x < N ∧ par comp0 x = x ∧ par comp x ≠ x) ∨ ∃ t ∈ ts, ∃ h l, t.pc = .store h l

theorem base_set {comp : List Nat} (hb : Base E N comp) {h l : Nat} (hl : l < h) (hh : h < N) (hc : Conn E h l) : Base E N (comp.set h l) := by
  refine ⟨by rw [List.length_set, hb.len], fun x => ?_, fun x => ?_⟩
  · rw [par_set hb.len hh]
    split
    · omega
    · exact hb.le x
  · rw [par_set hb.len hh]
    split
    · rename_i e; subst e; exact hc
    · exact hb.sound x

theorem low_eq {B cu cv : Nat} (h1 : cu < B) (h2 : cv < B) : (cu + (cv + B - max cu cv)) % B = min cu cv := by
  rcases Nat.le_total cu cv with c | c
  · rw [Nat.max_eq_right c, Nat.min_eq_left c, show cu + (cv + B - cv) = cu + B by omega, Nat.add_mod_right, Nat.mod_eq_of_lt h1]
  · rw [Nat.max_eq_left c, Nat.min_eq_right c, show cu + (cv + B - cu) = cv + B by omega, Nat.add_mod_right, Nat.mod_eq_of_lt h2]

def pcw : Pc → Nat
  | .idle => 0
  | .store _ _ => 1
  | .mark _ _ _ _ => 2
  | .test _ _ _ _ => 3
  | .readV _ _ _ => 4

def weight (t : Task) : Nat := 5 * t.rest.length + pcw t.pc

/-- A step that does not touch memory. -/
theorem RInv.local {comp0 comp : List Nat} {change : Bool} {ts : List Task} (h : RInv E N comp0 change comp ts) {i : Nat} {t t' : Task} (hi : ts[i]? = some t)
    (hpc : PcOk E N comp0 change t'.pc) (hrest : ∀ e ∈ t'.rest, e ∈ t.rest)
    (hpend : change = false → ∀ u v, (u, v) ∈ t.pending → par comp0 u = par comp0 v ∨ (u, v) ∈ t'.pending)
    (hstore : ∀ h l, t.pc ≠ .store h l) : RInv E N comp0 change comp (ts.set i t') := by
  have hmem : ∀ x ∈ ts.set i t', x = t' ∨ x ∈ ts := fun x hx => (List.mem_or_eq_of_mem_set hx).symm
  have hset : t' ∈ ts.set i t' := List.mem_of_getElem? (getElem?_set_same (t' := t') hi)
  have hother : ∀ x ∈ ts, x = t ∨ x ∈ ts.set i t' := by
    intro x hx
    obtain ⟨j, hj⟩ := List.getElem?_of_mem hx
    by_cases c : i = j
    · subst c
      rw [hi] at hj
      cases hj
      exact Or.inl rfl
    · exact Or.inr (List.mem_of_getElem? ((getElem?_set_other (t' := t') c).trans hj))
  refine ⟨h.base, h.keep, ?_, ?_, h.same, ?_, ?_⟩
  · intro x hx
    rcases hmem x hx with rfl | hx
    · exact hpc
    · exact h.pcs x hx
  · intro x hx e he
    rcases hmem x hx with rfl | hx
    · exact h.rest t (List.mem_of_getElem? hi) e (hrest e he)
    · exact h.rest x hx e he
  · intro hc u v huv
    rcases h.seen hc u v huv with k | ⟨x, hx, k⟩
    · exact Or.inl k
    · rcases hother x hx with rfl | hx'
      · rcases hpend hc u v k with m | m
        · exact Or.inl m
        · exact Or.inr ⟨t', hset, m⟩
      · exact Or.inr ⟨x, hx', k⟩
  · intro hc
    rcases h.lost hc with k | ⟨x, hx, a, b, k⟩
    · exact Or.inl k
    · rcases hother x hx with rfl | hx'
      · exact absurd k (hstore a b)
      · exact Or.inr ⟨x, hx', a, b, k⟩

theorem RInv.step {comp0 comp : List Nat} {change : Bool} {ts : List Task} {B : Nat} (hB : N ≤ B) (hE : ∀ u v, E u v → u < N ∧ v < N)
    (h0 : ∀ x, par comp0 (par comp0 x) = par comp0 x) (h : RInv E N comp0 change comp ts) {i : Nat} {t : Task} (hi : ts[i]? = some t) (hf : t.finished = false) :
    ∃ comp' change' t', taskStep B comp change t = .ok (comp', change', t') ∧ RInv E N comp0 change' comp' (ts.set i t') ∧ weight t' < weight t := by
  have hpc := h.pcs t (List.mem_of_getElem? hi)
  have hrest := h.rest t (List.mem_of_getElem? hi)
  obtain ⟨pc, rest⟩ := t
  cases pc with
  | idle =>
    cases rest with
    | nil => cases hf
    | cons e r =>
      obtain ⟨u, v⟩ := e
      have he := hrest (u, v) (List.mem_cons_self)
      obtain ⟨hu, hv⟩ := hE u v he
      refine ⟨comp, change, ⟨.readV u v (par comp u), r⟩, ?_, ?_, ?_⟩
      · simp only [taskStep]
        rw [par_get h.base.len hu]; rfl
      · refine h.local hi ?_ (fun e he => List.mem_cons_of_mem _ he) (fun _ _ _ k => Or.inr k) (fun _ _ => nofun)
        refine ⟨he, Nat.lt_of_le_of_lt (h.base.le u) hu, h.base.sound u, fun hc => by rw [h.same hc]⟩
      · simp [weight, pcw]; omega
  | readV u v cu =>
    obtain ⟨he, hcu, hconn, hsame⟩ := hpc
    obtain ⟨hu, hv⟩ := hE u v he
    by_cases c : cu = par comp v
    · refine ⟨comp, change, ⟨.idle, rest⟩, ?_, ?_, ?_⟩
      · simp only [taskStep]
        rw [par_get h.base.len hv, res_bind_ok, if_pos c]; rfl
      · refine h.local hi trivial (fun e he => he) (fun hc a b k => ?_) (fun _ _ => nofun)
        rcases List.mem_cons.1 k with k | k
        · cases k
          left
          rw [← hsame hc, c, h.same hc]
        · exact Or.inr k
      · simp [weight, pcw]
    · have hcv : par comp v < N := Nat.lt_of_le_of_lt (h.base.le v) hv
      refine ⟨comp, change, ⟨.test u v (max cu (par comp v)) (min cu (par comp v)), rest⟩, ?_, ?_, ?_⟩
      · simp only [taskStep]
        rw [par_get h.base.len hv, res_bind_ok, if_neg c, low_eq (by omega) (by omega)]; rfl
      · refine h.local hi ?_ (fun e he => he) (fun _ _ _ k => Or.inr k) (fun _ _ => nofun)
        have k : Conn E cu (par comp v) := hconn.symm.trans ((Conn.of he).trans (h.base.sound v))
        refine ⟨he, by omega, by omega, ?_, fun hc => ?_⟩
        · rcases Nat.le_total cu (par comp v) with c | c
          · rw [Nat.max_eq_right c, Nat.min_eq_left c]; exact k.symm
          · rw [Nat.max_eq_left c, Nat.min_eq_right c]; exact k
        · rw [hsame hc, h.same hc]
          rcases Nat.le_total (par comp0 u) (par comp0 v) with c | c
          · rw [Nat.max_eq_right c]; exact h0 v
          · rw [Nat.max_eq_left c]; exact h0 u
      · simp [weight, pcw]
  | test u v hi' lo =>
    obtain ⟨he, h1, h2, h3, h4⟩ := hpc
    by_cases c : hi' = par comp hi'
    · refine ⟨comp, change, ⟨.mark u v hi' lo, rest⟩, ?_, ?_, ?_⟩
      · simp only [taskStep]
        rw [par_get h.base.len h2, res_bind_ok, if_pos c]; rfl
      · refine h.local hi ?_ (fun e he => he) (fun _ _ _ k => Or.inr k) (fun _ _ => nofun)
        refine ⟨h1, h2, h3, ?_⟩
        by_cases d : par comp0 hi' = hi'
        · exact d
        · exact absurd c.symm (h.keep hi' d)
      · simp [weight, pcw]
    · refine ⟨comp, change, ⟨.idle, rest⟩, ?_, ?_, ?_⟩
      · simp only [taskStep]
        rw [par_get h.base.len h2, res_bind_ok, if_neg c]; rfl
      · refine h.local hi trivial (fun e he => he) (fun hc a b k => ?_) (fun _ _ => nofun)
        have := h4 hc
        rw [← h.same hc] at this
        exact absurd this.symm c
      · simp [weight, pcw]
  | mark u v hi' lo =>
    obtain ⟨h1, h2, h3, h4⟩ := hpc
    refine ⟨comp, true, ⟨.store hi' lo, rest⟩, rfl, ?_, by simp [weight, pcw]⟩
    have hset : (⟨.store hi' lo, rest⟩ : Task) ∈ ts.set i ⟨.store hi' lo, rest⟩ := List.mem_of_getElem? (getElem?_set_same hi)
    have hmem : ∀ x ∈ ts.set i ⟨.store hi' lo, rest⟩, x = ⟨.store hi' lo, rest⟩ ∨ x ∈ ts := fun x hx => (List.mem_or_eq_of_mem_set hx).symm
    refine ⟨h.base, h.keep, ?_, ?_, nofun, nofun, fun _ => Or.inr ⟨_, hset, _, _, rfl⟩⟩
    · intro x hx
      rcases hmem x hx with rfl | hx
      · exact ⟨h1, h2, h3, h4, rfl⟩
      · have := h.pcs x hx
        revert this
        cases x.pc with
        | idle => exact id
        | readV => exact fun k => ⟨k.1, k.2.1, k.2.2.1, nofun⟩
        | test => exact fun k => ⟨k.1, k.2.1, k.2.2.1, k.2.2.2.1, nofun⟩
        | mark => exact id
        | store => exact fun k => ⟨k.1, k.2.1, k.2.2.1, k.2.2.2.1, rfl⟩
    · intro x hx e he
      rcases hmem x hx with rfl | hx
      · exact hrest e he
      · exact h.rest x hx e he
  | store hi' lo =>
    obtain ⟨h1, h2, h3, h4, h5⟩ := hpc
    subst h5
    refine ⟨comp.set hi' lo, true, ⟨.idle, rest⟩, ?_, ?_, by simp [weight, pcw]⟩
    · simp only [taskStep]
      rw [vset_of_lt (by rw [h.base.len]; exact h2)]; rfl
    · have hmem : ∀ x ∈ ts.set i ⟨.idle, rest⟩, x = ⟨.idle, rest⟩ ∨ x ∈ ts := fun x hx => (List.mem_or_eq_of_mem_set hx).symm
      refine ⟨base_set h.base h1 h2 h3, ?_, ?_, ?_, nofun, nofun, fun _ => Or.inl ⟨hi', h2, h4, ?_⟩⟩
      · intro x hx
        rw [par_set h.base.len h2]
        split
        · omega
        · exact h.keep x hx
      · intro x hx
        rcases hmem x hx with rfl | hx
        · trivial
        · exact h.pcs x hx
      · intro x hx e he
        rcases hmem x hx with rfl | hx
        · exact hrest e he
        · exact h.rest x hx e he
      · rw [par_set h.base.len h2, if_pos rfl]; omega

theorem has_running {ts : List Task} (h : ¬ ∀ t ∈ ts, t.finished = true) : ∃ (i : Nat) (t : Task), ts[i]? = some t ∧ t.finished = false := by
  push Not at h
  obtain ⟨t, ht, hf⟩ := h
  obtain ⟨i, hi⟩ := List.getElem?_of_mem ht
  exact ⟨i, t, hi, by simpa using hf⟩

/-- The whole program's invariant. -/
def Inv (E : Nat → Nat → Prop) (N : Nat) : State → Prop
  | .head iter change comp => Base E N comp ∧ (∀ x, par comp (par comp x) = par comp x) ∧
      (change = false → ∀ u v, E u v → root (par comp) u = root (par comp) v) ∧ (change = true → iter + roots N comp ≤ N)
  | .run iter change comp ts => iter < N ∧ ∃ comp0, Base E N comp0 ∧ (∀ x, par comp0 (par comp0 x) = par comp0 x) ∧ iter + roots N comp0 ≤ N ∧
      RInv E N comp0 change comp ts
  | .flat iter change comp n => iter < N ∧ Base E N comp ∧ (∀ x, x < n → par comp (par comp x) = par comp x) ∧
      (change = false → ∀ u v, E u v → root (par comp) u = root (par comp) v) ∧ (change = true → iter + 1 + roots N comp ≤ N)

def phase : State → Nat
  | .head .. => 2
  | .run .. => 1
  | .flat .. => 0

def iterOf : State → Nat
  | .head i .. | .run i .. | .flat i .. => i

def work (N : Nat) : State → Nat
  | .head .. => 0
  | .run _ _ _ ts => (ts.map weight).sum
  | .flat _ _ comp n => comp.sum + (N - n)

theorem sum_set_lt {l : List Nat} {i x y : Nat} (h : l[i]? = some x) (hy : y < x) : (l.set i y).sum < l.sum := by
  have := sum_map_set_lt (fun x => x) (t' := y) h hy
  simpa using this

/-- One step of the compression. -/
theorem flat_ok {iter n : Nat} {change : Bool} {comp : List Nat} (h : Inv E N (.flat iter change comp n)) (hn : n < N) :
    ∃ s', flatStep iter change comp n = .ok s' ∧ Inv E N s' ∧ iterOf s' = iter ∧ phase s' = 0 ∧ work N s' < comp.sum + (N - n) := by
  obtain ⟨hit, hb, hfl, hcl, hro⟩ := h
  have hp : par comp n < N := Nat.lt_of_le_of_lt (hb.le n) hn
  unfold flatStep
  rw [par_get hb.len hn, res_bind_ok, par_get hb.len hp, res_bind_ok]
  by_cases c : par comp n = par comp (par comp n)
  · rw [if_neg (fun k => k c)]
    refine ⟨_, rfl, ⟨hit, hb, fun x hx => ?_, hcl, hro⟩, rfl, rfl, ?_⟩
    · rcases Nat.lt_succ_iff_lt_or_eq.1 hx with hx | rfl
      · exact hfl x hx
      · exact c.symm
    · show comp.sum + (N - (n + 1)) < _
      omega
  · have hlt : par comp (par comp n) < par comp n := by
      have := hb.le (par comp n)
      omega
    have hpn : par comp n < n := by
      have := hb.le n
      rcases Nat.lt_or_eq_of_le this with k | k
      · exact k
      · exact absurd (by rw [k, k]) c
    rw [if_pos c, vset_of_lt (by rw [hb.len]; exact hn), res_bind_ok]
    have hset : ∀ x, par (comp.set n (par comp (par comp n))) x = if x = n then par comp (par comp n) else par comp x := par_set hb.len hn
    have hroot : ∀ x, root (par (comp.set n (par comp (par comp n)))) x = root (par comp) x :=
      root_redirect hb.le hpn (by omega) (by rw [root_step hb.le, root_step hb.le]) hset
    refine ⟨_, rfl, ⟨hit, base_set hb (by omega) hn ((hb.sound n).trans (hb.sound _)), fun x hx => ?_, fun hc u v huv => ?_, fun hc => ?_⟩, rfl, rfl, ?_⟩
    · rw [hset x, if_neg (by omega), hset, if_neg (by have := hb.le x; omega)]
      exact hfl x hx
    · rw [hroot, hroot]; exact hcl hc u v huv
    · have : roots N (comp.set n (par comp (par comp n))) = roots N comp := by
        refine roots_eq fun x _ => ?_
        rw [hset]
        by_cases e : x = n
        · subst e; rw [if_pos rfl]; omega
        · rw [if_neg e]
      rw [this]; exact hro hc
    · show (comp.set n (par comp (par comp n))).sum + (N - n) < _
      have hg : comp[n]? = some (par comp n) := by
        have := par_get hb.len hn
        rw [vget_eq_ok] at this; exact this
      have := sum_set_lt hg hlt
      omega

/-- What is used of the division of the edges. -/
def SplitOk (split : Rows α → List (List (Nat × Nat)) → Prop) (g : Rows α) : Prop :=
  (∃ cs, split g cs) ∧ ∀ cs, split g cs → ∀ u v, Edge g u v ↔ ∃ c ∈ cs, (u, v) ∈ c

theorem mem_rowEdges {g : Rows α} {w u v : Nat} : (u, v) ∈ rowEdges g w ↔ u = w ∧ Edge g u v := by
  unfold rowEdges
  rw [List.mem_map]
  constructor
  · rintro ⟨e, he, h⟩
    cases h
    exact ⟨rfl, Cc.edge_iff_entry.2 ⟨e, he, rfl⟩⟩
  · rintro ⟨rfl, h⟩
    obtain ⟨e, he, rfl⟩ := Cc.edge_iff_entry.1 h
    exact ⟨e, he, rfl⟩

theorem byVertex_ok (g : Rows α) : SplitOk byVertex g := by
  refine ⟨⟨_, rfl⟩, ?_⟩
  rintro cs rfl u v
  constructor
  · intro h
    exact ⟨_, List.mem_map.2 ⟨u, by simpa using h.src_lt, rfl⟩, mem_rowEdges.2 ⟨rfl, h⟩⟩
  · rintro ⟨c, hc, h⟩
    obtain ⟨w, -, rfl⟩ := List.mem_map.1 hc
    exact (mem_rowEdges.1 h).2

theorem byEdge_ok (g : Rows α) : SplitOk byEdge g := by
  refine ⟨⟨[(List.range g.length).flatMap (rowEdges g)], by simp [byEdge]⟩, ?_⟩
  intro cs hcs u v
  have key : (∃ c ∈ cs, (u, v) ∈ c) ↔ (u, v) ∈ cs.flatten := List.mem_flatten.symm
  rw [key, hcs, List.mem_flatMap]
  constructor
  · intro h
    exact ⟨u, by simpa using h.src_lt, mem_rowEdges.2 ⟨rfl, h⟩⟩
  · rintro ⟨w, -, h⟩
    exact (mem_rowEdges.1 h).2

/-- The algorithm, for any division of the edges that covers them. -/
theorem sv_sure (split : Rows α → List (List (Nat × Nat)) → Prop) (g : Rows α) (B : Nat) (hg : InRange g) (hB : g.length ≤ B) (hs : SplitOk split g) :
    Sure (Step split B g) (fun comp => comp.length = g.length ∧ LeastLabels (Edge g) g.length comp ∧ ComponentLabels (Edge g) g.length comp) (start g) := by
  have hE : ∀ u v, Edge g u v → u < g.length ∧ v < g.length := fun u v h => ⟨h.src_lt, hg u v h⟩
  refine Sure.of_inv (lt := Prod.Lex (· < ·) (Prod.Lex (· < ·) (· < ·))) (Prod.lex Nat.lt_wfRel (Prod.lex Nat.lt_wfRel Nat.lt_wfRel)).wf
    (fun s => (g.length - iterOf s, phase s, work g.length s)) (Inv (Edge g) g.length) ?_ ?_ _ ?_
  · intro s hI
    cases s with
    | head iter change comp =>
      by_cases c : iter < g.length
      · cases change with
        | true => exact ⟨_, .go c hs.1.choose_spec⟩
        | false => exact ⟨_, .stop (Or.inr rfl)⟩
      · exact ⟨_, .stop (Or.inl c)⟩
    | run iter change comp ts =>
      by_cases c : ∀ t ∈ ts, t.finished = true
      · exact ⟨_, .join c⟩
      · obtain ⟨i, t, h1, h2⟩ := has_running c
        exact ⟨_, .task h1 h2⟩
    | flat iter change comp n =>
      by_cases c : n < g.length
      · exact ⟨_, .flat c⟩
      · exact ⟨_, .again c⟩
  · intro s o hI hstep
    cases hstep with
    | @stop iter change comp h =>
      right
      obtain ⟨hb, hst, hcl, hro⟩ := hI
      refine ⟨_, rfl, ?_⟩
      have : LeastLabels (Edge g) g.length comp := by
        cases change with
        | false => exact hb.least (hcl rfl) (fun n _ => hst n)
        | true =>
          have h : ¬ iter < g.length := by
            rcases h with h | h
            · exact h
            · cases h
          have hro := hro rfl
          rcases Nat.eq_zero_or_pos g.length with k | k
          · intro x hx; omega
          · have := roots_pos (comp := comp) k (hb.le 0)
            omega
      exact ⟨hb.len, this, this.components⟩
    | @go iter comp cs h hs' =>
      left
      obtain ⟨hb, hst, hcl, hro⟩ := hI
      have hcs := hs.2 cs hs'
      refine ⟨_, rfl, ⟨h, comp, hb, hst, hro rfl, ⟨hb, fun _ k => k, ?_, ?_, fun _ => rfl, ?_, nofun⟩⟩, .right _ (.left _ _ (by simp only [phase]; omega))⟩
      · intro t ht
        obtain ⟨c, -, rfl⟩ := List.mem_map.1 ht
        trivial
      · intro t ht e he
        obtain ⟨c, hc, rfl⟩ := List.mem_map.1 ht
        exact (hcs e.1 e.2).2 ⟨c, hc, he⟩
      · intro _ u v huv
        obtain ⟨c, hc, h⟩ := (hcs u v).1 huv
        exact Or.inr ⟨_, List.mem_map.2 ⟨c, hc, rfl⟩, h⟩
    | @task iter change comp ts i t hi hf =>
      left
      obtain ⟨hit, comp0, h1, h2, h3, h4⟩ := hI
      obtain ⟨comp', change', t', k1, k2, k3⟩ := h4.step hB hE h2 hi hf
      rw [k1]
      exact ⟨_, rfl, ⟨hit, comp0, h1, h2, h3, k2⟩, .right _ (.right _ (sum_map_set_lt weight hi k3))⟩
    | @join iter change comp ts hf =>
      left
      obtain ⟨hit, comp0, h1, h2, h3, h4⟩ := hI
      refine ⟨_, rfl, ⟨hit, h4.base, fun x hx => absurd hx (Nat.not_lt_zero _), fun hc u v huv => ?_, fun hc => ?_⟩, .right _ (.left _ _ (by simp only [phase]; omega))⟩
      · have hpar : par comp u = par comp v := by
          rcases h4.seen hc u v huv with k | ⟨t, ht, k⟩
          · rw [h4.same hc]; exact k
          · have := hf t ht
            obtain ⟨pc, rest⟩ := t
            cases pc <;> cases rest <;> first | exact absurd k List.not_mem_nil | cases this
        rw [← root_step h4.base.le u, hpar, root_step h4.base.le]
      · rcases h4.lost hc with ⟨x, m1, m2, m3⟩ | ⟨t, ht, a, b, k⟩
        · have := roots_lt h4.keep m1 m2 m3
          omega
        · have := hf t ht
          unfold Task.finished at this
          rw [k] at this
          cases this
    | @flat iter change comp n h =>
      left
      obtain ⟨s', k1, k2, k3, k4, k5⟩ := flat_ok hI h
      rw [k1]
      refine ⟨_, rfl, k2, ?_⟩
      rw [k3, k4]
      exact .right _ (.right _ k5)
    | @again iter change comp n h =>
      left
      obtain ⟨hit, hb, hfl, hcl, hro⟩ := hI
      refine ⟨_, rfl, ⟨hb, fun x => ?_, hcl, hro⟩, .left _ _ (by show g.length - (iter + 1) < g.length - iter; omega)⟩
      by_cases c : x < n
      · exact hfl x c
      · have : par comp x = x := by
          rw [par, List.getD_eq_getElem?_getD, List.getElem?_eq_none (by rw [hb.len]; omega)]; rfl
        rw [this, this]
  · refine ⟨base_init _ _, fun x => ?_, nofun, fun _ => by have := roots_le g.length (List.range g.length); omega⟩
    have hp : ∀ x, par (List.range g.length) x = x := by
      intro x
      rw [par, List.getD_eq_getElem?_getD]
      rcases Nat.lt_or_ge x g.length with c | c
      · rw [List.getElem?_range c]; rfl
      · rw [List.getElem?_eq_none (by simpa using c)]; rfl
    rw [hp, hp]

/-- C86. `sv_v6` and `sv_v8`: for every graph, directed or not, and every schedule, they end without a fault and label every vertex, and nothing else, with the least vertex
of its (weakly) connected component; so labels are equal exactly within components. -/
theorem sv_vertex_correct (g : Rows α) (B : Nat) (hg : InRange g) (hB : g.length ≤ B) :
    Sure (Step byVertex B g) (fun comp => comp.length = g.length ∧ LeastLabels (Edge g) g.length comp ∧ ComponentLabels (Edge g) g.length comp) (start g) :=
  sv_sure byVertex g B hg hB (byVertex_ok g)

/-- C86. The same of `sv_v9`, however the range of edges is divided among threads in each iteration. -/
theorem sv_edge_correct (g : Rows α) (B : Nat) (hg : InRange g) (hB : g.length ≤ B) :
    Sure (Step byEdge B g) (fun comp => comp.length = g.length ∧ LeastLabels (Edge g) g.length comp ∧ ComponentLabels (Edge g) g.length comp) (start g) :=
  sv_sure byEdge g B hg hB (byEdge_ok g)

example : Sure (Step byVertex (2 ^ 32) Cc.exDir) (fun comp => comp.length = 4 ∧ LeastLabels (Edge Cc.exDir) 4 comp ∧ ComponentLabels (Edge Cc.exDir) 4 comp)
    (start Cc.exDir) :=
  sv_vertex_correct Cc.exDir (2 ^ 32) (by decide) (by decide)

example : Sure (Step byEdge (2 ^ 32) exFan) (fun comp => comp.length = 3 ∧ LeastLabels (Edge exFan) 3 comp ∧ ComponentLabels (Edge exFan) 3 comp) (start exFan) :=
  sv_edge_correct exFan (2 ^ 32) (by decide) (by decide)

end NW.SvExp
