import Verif.Lemmas.Dsu

/-! # Property C37: union-find -/

namespace NW.Dsu
open Spec

/-- The calls a client can make. -/
inductive Op where
  | find (v : Nat)
  | union (u v : Nat)
  | unionFind (u v : Nat)

/-- What the calls return. -/
inductive Out where
  | rep (r : Nat)
  | unit
  | merged (b : Bool)

/-- One call. -/
def apply (s : Subsets) : Op → Run (Subsets × Out)
  | .find v => do let (s, r) ← disjointFind s v; return (s, .rep r)
  | .union u v => do let s ← disjointUnion s u v; return (s, .unit)
  | .unionFind u v => do let (s, b) ← disjointUnionFind s u v; return (s, .merged b)

/-- A sequence of calls, with what they return. -/
def runOps (ops : List Op) (s : Subsets) : Run (Subsets × List Out) :=
  ops.foldlM (fun st op => do let (s, o) ← apply st.1 op; return (s, st.2 ++ [o])) (s, [])

/-- The arguments of a call are elements. -/
def Op.Within (n : Nat) : Op → Prop
  | .find v => v < n
  | .union u v => u < n ∧ v < n
  | .unionFind u v => u < n ∧ v < n

/-- The pair a call asks to join. -/
def Op.pair : Op → List (Nat × Nat)
  | .find _ => []
  | .union u v => [(u, v)]
  | .unionFind u v => [(u, v)]

/-- The pairs joined by a sequence of calls. -/
def joins (ops : List Op) : List (Nat × Nat) := ops.flatMap Op.pair

/-- What a call made after joining `l` has to return: `find` an element connected to its argument, `disjoint_union_find` whether its arguments were
not connected before. -/
def Op.Returns (n : Nat) (l : List (Nat × Nat)) : Op → Out → Prop
  | .find v, .rep r => r < n ∧ Conn (Pairs l) v r
  | .union _ _, .unit => True
  | .unionFind u v, .merged b => b = true ↔ ¬ Conn (Pairs l) u v
  | _, _ => False

theorem apply_gives {n : Nat} {l : List (Nat × Nat)} {s : Subsets} (h : Rep n l s) (op : Op) (hop : op.Within n) :
    Run.Gives (apply s op) fun r => Rep n (l ++ op.pair) r.1 ∧ op.Returns n l r.2 := by
  cases op with
  | find v =>
    refine (find_gives h.wf (by rw [h.len]; exact hop)).bind ?_
    rintro ⟨s1, r⟩ ⟨h1, h2⟩
    refine Run.gives_pure ⟨?_, ?_⟩
    · show Rep n (l ++ []) s1
      rw [List.append_nil]; exact h.same h1
    · refine ⟨by have := h2.root_lt; rw [h.len] at this; exact this, ?_⟩
      obtain ⟨k, hk⟩ := h2.isRoot
      exact (h.conn v r r r h2 (.root hk)).1 rfl
  | union u v =>
    exact (union_gives h hop.1 hop.2).bind fun s1 h1 => Run.gives_pure ⟨h1, trivial⟩
  | unionFind u v =>
    refine (unionFind_gives h hop.1 hop.2).bind ?_
    rintro ⟨s1, b⟩ ⟨h1, h2⟩
    exact Run.gives_pure ⟨h1, h2⟩

/-- C37.  Start from singletons and make any sequence of calls.  All calls terminate without reading outside the vector, every call returns what it
has to, and afterwards there is a choice of representatives that `disjoint_find` returns, that are the same for two elements exactly if the
calls made so far connect them. -/
theorem union_find_correct (n : Nat) (ops : List Op) (hops : ∀ op ∈ ops, op.Within n) :
    Run.Gives (runOps ops (singletons n)) fun st =>
      (∀ (k : Nat) (op : Op), ops[k]? = some op → ∃ o, st.2[k]? = some o ∧ op.Returns n (joins (ops.take k)) o) ∧
      ∃ rep : Nat → Nat,
        (∀ x, x < n → Run.Gives (disjointFind st.1 x) fun r => r.2 = rep x) ∧
        ∀ x y, x < n → y < n → (rep x = rep y ↔ Conn (Pairs (joins ops)) x y) := by
  have main : Run.Gives (runOps ops (singletons n)) fun st => Rep n (joins ops) st.1 ∧ st.2.length = ops.length ∧
      (∀ (k : Nat) (op : Op), ops[k]? = some op → ∃ o, st.2[k]? = some o ∧ op.Returns n (joins (ops.take k)) o) := by
    unfold runOps
    refine Run.gives_foldlM (fun pre (st : Subsets × List Out) => Rep n (joins pre) st.1 ∧ st.2.length = pre.length ∧
      (∀ (k : Nat) (op : Op), pre[k]? = some op → ∃ o, st.2[k]? = some o ∧ op.Returns n (joins (pre.take k)) o))
      ⟨rep_singletons n, rfl, by intro k op h; simp at h⟩ ?_
    rintro pre op post hl ⟨s, outs⟩ ⟨h1, h2, h3⟩
    refine (apply_gives h1 op (hops op (by rw [hl]; simp))).bind ?_
    rintro ⟨s', o⟩ ⟨h4, h5⟩
    refine Run.gives_pure ⟨?_, by simp [h2], ?_⟩
    · simpa [joins] using h4
    · intro k op' hk
      by_cases c : k < pre.length
      · rw [List.getElem?_append_left c] at hk
        obtain ⟨o', ho1, ho2⟩ := h3 k op' hk
        refine ⟨o', ?_, ?_⟩
        · show (outs ++ [o])[k]? = _
          have h2' : outs.length = pre.length := h2
          rw [List.getElem?_append_left (by omega)]; exact ho1
        · rw [List.take_append_of_le_length (by omega)]; exact ho2
      · have hlt := (List.getElem?_eq_some_iff.1 hk).1
        rw [List.length_append, List.length_singleton] at hlt
        have : k = pre.length := by omega
        subst this
        simp at hk
        subst hk
        have h2' : outs.length = pre.length := h2
        refine ⟨o, ?_, ?_⟩
        · show (outs ++ [o])[pre.length]? = _
          rw [← h2']; simp
        · simpa using h5
  refine main.mono ?_
  rintro ⟨s, outs⟩ ⟨h1, -, h3⟩
  refine ⟨h3, ?_⟩
  have hex : ∀ x, ∃ r, x < n → RootOf s x r := by
    intro x
    by_cases c : x < n
    · obtain ⟨r, hr⟩ := RootOf.exists h1.wf (x := x) (by show x < s.length; have : s.length = n := h1.len; omega)
      exact ⟨r, fun _ => hr⟩
    · exact ⟨0, fun h => absurd h c⟩
  choose rep hrep using hex
  refine ⟨rep, ?_, ?_⟩
  · intro x hx
    refine (find_gives h1.wf (by show x < s.length; have : s.length = n := h1.len; omega)).mono ?_
    rintro ⟨s', r⟩ ⟨-, h5⟩
    exact h5.det (hrep x hx)
  · intro x y hx hy
    exact h1.conn x y _ _ (hrep x hx) (hrep y hy)

/-- The calls are deterministic. -/
theorem union_find_det (ops : List Op) (s : Subsets) : Run.Det (runOps ops s) := by
  have hfind : ∀ s v, Run.Det (disjointFind s v) := fun s v =>
    (Run.det_lift _).bind fun _ => (Run.det_loop _ _).bind fun _ => (Run.det_loop _ _).bind fun _ => Run.det_lift _
  have happly : ∀ s op, Run.Det (apply s op) := by
    intro s op
    cases op with
    | find v => exact (hfind s v).bind fun _ => Run.det_lift _
    | union u v => exact ((hfind s u).bind fun _ => (hfind _ v).bind fun _ => Run.det_lift _).bind fun _ => Run.det_lift _
    | unionFind u v =>
      refine ((hfind s u).bind fun ⟨s1, a⟩ => (hfind _ v).bind fun ⟨s2, b⟩ => ?_).bind fun _ => Run.det_lift _
      show Run.Det (if a ≠ b then _ else _)
      split
      · exact (Run.det_lift _).bind fun _ => Run.det_lift _
      · exact Run.det_lift _
  unfold runOps
  generalize (s, ([] : List Out)) = st
  induction ops generalizing st with
  | nil => exact Run.det_lift _
  | cons op ops ih =>
    rw [List.foldlM_cons]
    exact ((happly st.1 op).bind fun _ => Run.det_lift _).bind fun st' => ih st'

/-! ## The hypotheses can be met -/

example : ∀ op ∈ [Op.union 0 1, .unionFind 2 3, .find 1, .unionFind 0 1], op.Within 4 := by
  intro op h
  simp at h
  rcases h with rfl | rfl | rfl | rfl <;> simp [Op.Within]

end NW.Dsu
