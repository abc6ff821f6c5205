import Verif.Base

/-! # Programs with several possible next steps

A program whose steps depend on scheduling is given by a relation: `step s o` says that from `s` the next step may have outcome `o`,
which continues, ends with a result, or faults. -/

namespace NW

variable {σ ρ : Type}

/-- Whatever the scheduling, the program started in `s` never faults, never gets stuck, always ends, and ends with a result satisfying `Q`.
(The definition is inductive: there is no infinite sequence of steps.) -/
inductive Sure (step : σ → Res (σ ⊕ ρ) → Prop) (Q : ρ → Prop) : σ → Prop
  | mk {s : σ} (go : ∃ o, step s o) (safe : ∀ f, ¬ step s (.error f)) (fin : ∀ r, step s (.ok (.inr r)) → Q r)
      (next : ∀ s', step s (.ok (.inl s')) → Sure step Q s') : Sure step Q s

/-- `Runs step s o`: some scheduling leads from `s` to the outcome `o`. -/
inductive Runs (step : σ → Res (σ ⊕ ρ) → Prop) : σ → Res ρ → Prop
  | done {s : σ} {r : ρ} (h : step s (.ok (.inr r))) : Runs step s (.ok r)
  | fault {s : σ} {f : Fault} (h : step s (.error f)) : Runs step s (.error f)
  | step {s s' : σ} {o : Res ρ} (h : step s (.ok (.inl s'))) (hr : Runs step s' o) : Runs step s o

theorem Sure.outcome {step : σ → Res (σ ⊕ ρ) → Prop} {Q : ρ → Prop} {s : σ} (h : Sure step Q s) {o : Res ρ} (hr : Runs step s o) :
    ∃ r, o = .ok r ∧ Q r := by
  induction hr with
  | done hs => cases h with | mk _ _ fin _ => exact ⟨_, rfl, fin _ hs⟩
  | fault hs => cases h with | mk _ safe _ _ => exact absurd hs (safe _)
  | step hs _ ih => cases h with | mk _ _ _ next => exact ih (next _ hs)

theorem Sure.exists_run {step : σ → Res (σ ⊕ ρ) → Prop} {Q : ρ → Prop} {s : σ} (h : Sure step Q s) : ∃ r, Runs step s (.ok r) ∧ Q r := by
  induction h with
  | mk go safe fin next ih =>
    obtain ⟨o, ho⟩ := go
    match o, ho with
    | .error f, ho => exact absurd ho (safe f)
    | .ok (.inr r), ho => exact ⟨r, .done ho, fin r ho⟩
    | .ok (.inl s'), ho =>
      obtain ⟨r, h1, h2⟩ := ih s' ho
      exact ⟨r, .step ho h1, h2⟩

theorem Sure.no_infinite_run {step : σ → Res (σ ⊕ ρ) → Prop} {Q : ρ → Prop} {s : σ} (h : Sure step Q s) (f : Nat → σ) (h0 : f 0 = s)
    (hf : ∀ i, step (f i) (.ok (.inl (f (i + 1))))) : False := by
  induction h generalizing f with
  | @mk s go safe fin next ih =>
    refine ih (f 1) ?_ (fun i => f (i + 1)) rfl (fun i => hf (i + 1))
    have := hf 0
    rw [h0] at this
    exact this

theorem Sure.mono {step : σ → Res (σ ⊕ ρ) → Prop} {Q Q' : ρ → Prop} {s : σ} (h : Sure step Q s) (hq : ∀ r, Q r → Q' r) : Sure step Q' s := by
  induction h with
  | mk go safe fin next ih => exact .mk go safe (fun r hr => hq r (fin r hr)) ih

/-- An invariant with a well-founded measure. -/
theorem Sure.of_inv {step : σ → Res (σ ⊕ ρ) → Prop} {Q : ρ → Prop} {β : Type} {lt : β → β → Prop} (wf : WellFounded lt) (m : σ → β) (I : σ → Prop)
    (hgo : ∀ s, I s → ∃ o, step s o)
    (hstep : ∀ s o, I s → step s o → (∃ s', o = .ok (.inl s') ∧ I s' ∧ lt (m s') (m s)) ∨ ∃ r, o = .ok (.inr r) ∧ Q r) (s : σ) (hs : I s) :
    Sure step Q s := by
  generalize hm : m s = k
  induction k using wf.induction generalizing s with
  | _ k ih =>
    subst hm
    refine .mk (hgo s hs) ?_ ?_ ?_
    · intro f h
      rcases hstep s _ hs h with ⟨_, k, -⟩ | ⟨_, k, -⟩ <;> cases k
    · intro r h
      rcases hstep s _ hs h with ⟨_, k, -⟩ | ⟨_, k, hq⟩
      · cases k
      · cases k; exact hq
    · intro s' h
      rcases hstep s _ hs h with ⟨_, k, k2, k3⟩ | ⟨_, k, -⟩
      · cases k; exact ih _ k3 _ k2 rfl
      · cases k

/-- `Steps step s s'`: some scheduling leads from `s` to the state `s'`. -/
inductive Steps (step : σ → Res (σ ⊕ ρ) → Prop) : σ → σ → Prop
  | refl (s : σ) : Steps step s s
  | tail {s s' s'' : σ} : Steps step s s' → step s' (.ok (.inl s'')) → Steps step s s''

theorem Steps.inv {step : σ → Res (σ ⊕ ρ) → Prop} (I : σ → Prop) (h : ∀ s s', I s → step s (.ok (.inl s')) → I s') {s s' : σ} (hs : I s)
    (hr : Steps step s s') : I s' := by
  induction hr with
  | refl => exact hs
  | tail _ hst ih => exact h _ _ ih hst

/-- Lowering one entry lowers the sum. -/
theorem sum_map_set_lt {τ : Type} (w : τ → Nat) {ts : List τ} {i : Nat} {t t' : τ} (h : ts[i]? = some t) (hw : w t' < w t) :
    ((ts.set i t').map w).sum < (ts.map w).sum := by
  induction ts generalizing i with
  | nil => simp at h
  | cons x xs ih =>
    cases i with
    | zero =>
      simp at h; subst h
      simpa using hw
    | succ i =>
      simp at h
      have := ih h
      simpa using this

theorem getElem?_set_cases {τ : Type} {ts : List τ} {i j : Nat} {t' t : τ} (h : (ts.set i t')[j]? = some t) :
    (i = j ∧ t = t') ∨ (i ≠ j ∧ ts[j]? = some t) := by
  rw [List.getElem?_set] at h
  split at h
  · split at h
    · left; exact ⟨by assumption, (Option.some.inj h).symm⟩
    · cases h
  · right; exact ⟨by assumption, h⟩

theorem getElem?_set_other {τ : Type} {ts : List τ} {i j : Nat} {t' : τ} (h : i ≠ j) : (ts.set i t')[j]? = ts[j]? := by
  rw [List.getElem?_set, if_neg h]

theorem getElem?_set_same {τ : Type} {ts : List τ} {i : Nat} {t t' : τ} (h : ts[i]? = some t) : (ts.set i t')[i]? = some t' := by
  have : i < ts.length := (List.getElem?_eq_some_iff.1 h).1
  rw [List.getElem?_set, if_pos rfl, if_pos this]

/-- `s'` is a state of the loop that starts in `s`. -/
abbrev During (body : σ → Res (σ ⊕ ρ)) (s s' : σ) : Prop := Steps (fun s o => body s = o) s s'

theorem Steps.head {step : σ → Res (σ ⊕ ρ) → Prop} {s s' s'' : σ} (h : step s (.ok (.inl s'))) (hs : Steps step s' s'') : Steps step s s'' := by
  induction hs with
  | refl => exact .tail (.refl _) h
  | tail _ h3 ih => exact .tail ih h3

theorem Steps.trans {step : σ → Res (σ ⊕ ρ) → Prop} {s s' s'' : σ} (h : Steps step s s') (hs : Steps step s' s'') : Steps step s s'' := by
  induction hs with
  | refl => exact h
  | tail _ h3 ih => exact .tail ih h3

theorem During.of_loop {body : σ → Res (σ ⊕ ρ)} {s : σ} {o : Res ρ} (h : Loop body s o) :
    ∃ s', During body s s' ∧ ((∃ r, o = .ok r ∧ body s' = .ok (.inr r)) ∨ ∃ f, o = .error f ∧ body s' = .error f) := by
  induction h with
  | done hb => exact ⟨_, .refl _, Or.inl ⟨_, rfl, hb⟩⟩
  | fault hb => exact ⟨_, .refl _, Or.inr ⟨_, rfl, hb⟩⟩
  | step hb _ ih =>
    obtain ⟨s', h1, h2⟩ := ih
    exact ⟨s', .head hb h1, h2⟩

theorem During.loop {body : σ → Res (σ ⊕ ρ)} {s s' : σ} {o : Res ρ} (h : During body s s') (hl : Loop body s' o) : Loop body s o := by
  induction h with
  | refl => exact hl
  | tail _ h2 ih => exact ih (.step h2 hl)

/-- A loop that is bound to fault. -/
theorem During.to_fault {τ : Type} {body : σ → Res (σ ⊕ ρ)} {f : Fault} (I : σ → Prop) (m : σ → τ) {lt : τ → τ → Prop} (wf : WellFounded lt)
    (hstep : ∀ s, I s → (∃ s', body s = .ok (.inl s') ∧ I s' ∧ lt (m s') (m s)) ∨ body s = .error f) (s : σ) (hs : I s) :
    ∃ s', During body s s' ∧ I s' ∧ body s' = .error f := by
  generalize hk : m s = k
  induction k using wf.induction generalizing s with
  | _ k ih =>
    subst hk
    rcases hstep s hs with ⟨s', h1, h2, h3⟩ | h
    · obtain ⟨s'', h4, h5, h6⟩ := ih _ h3 s' h2 rfl
      exact ⟨s'', .head h1 h4, h5, h6⟩
    · exact ⟨s, .refl _, hs, h⟩

end NW
