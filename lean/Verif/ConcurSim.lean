import Verif.Concur

/-! # Programs whose schedules are among those of another program -/

namespace NW

variable {σ τ ρ : Type}

/-- The outcomes of one step match: both continue in related states, or both end alike. -/
inductive Match (R : σ → τ → Prop) : Res (σ ⊕ ρ) → Res (τ ⊕ ρ) → Prop
  | fault (f : Fault) : Match R (.error f) (.error f)
  | fin (r : ρ) : Match R (.ok (.inr r)) (.ok (.inr r))
  | next {s : σ} {t : τ} (h : R s t) : Match R (.ok (.inl s)) (.ok (.inl t))

/-- Every step of the first program is a step of the second, and the first never gets stuck. -/
structure Sim (step : σ → Res (σ ⊕ ρ) → Prop) (step' : τ → Res (τ ⊕ ρ) → Prop) (R : σ → τ → Prop) : Prop where
  go : ∀ {s t}, R s t → ∃ o, step s o
  sim : ∀ {s t o}, R s t → step s o → ∃ o', step' t o' ∧ Match R o o'

variable {step : σ → Res (σ ⊕ ρ) → Prop} {step' : τ → Res (τ ⊕ ρ) → Prop} {R : σ → τ → Prop}

/-- What holds under every schedule of the second program holds under every schedule of the first. -/
theorem Sim.sure (h : Sim step step' R) {Q : ρ → Prop} {s : σ} {t : τ} (hR : R s t) (ht : Sure step' Q t) : Sure step Q s := by
  induction ht generalizing s with
  | mk go safe fin next ih =>
    refine .mk (h.go hR) ?_ ?_ ?_
    · intro f hs
      obtain ⟨o', h1, h2⟩ := h.sim hR hs
      cases h2
      exact safe _ h1
    · intro r hs
      obtain ⟨o', h1, h2⟩ := h.sim hR hs
      cases h2
      exact fin _ h1
    · intro s' hs
      obtain ⟨o', h1, h2⟩ := h.sim hR hs
      cases h2 with
      | next h3 => exact ih _ h1 h3

/-- An outcome of the first program is an outcome of the second. -/
theorem Sim.runs (h : Sim step step' R) {s : σ} {t : τ} {o : Res ρ} (hR : R s t) (hs : Runs step s o) : Runs step' t o := by
  induction hs generalizing t with
  | done h1 =>
    obtain ⟨o', k1, k2⟩ := h.sim hR h1
    cases k2
    exact .done k1
  | fault h1 =>
    obtain ⟨o', k1, k2⟩ := h.sim hR h1
    cases k2
    exact .fault k1
  | step h1 _ ih =>
    obtain ⟨o', k1, k2⟩ := h.sim hR h1
    cases k2 with
    | next h3 => exact .step k1 (ih h3)

/-- Every schedule ends, with a result or a fault. -/
inductive Ends (step : σ → Res (σ ⊕ ρ) → Prop) : σ → Prop
  | mk {s : σ} (go : ∃ o, step s o) (next : ∀ s', step s (.ok (.inl s')) → Ends step s') : Ends step s

theorem Ends.exists_run {s : σ} (h : Ends step s) : ∃ o, Runs step s o := by
  induction h with
  | mk go next ih =>
    obtain ⟨o, ho⟩ := go
    match o, ho with
    | .error f, ho => exact ⟨_, .fault ho⟩
    | .ok (.inr r), ho => exact ⟨_, .done ho⟩
    | .ok (.inl s'), ho =>
      obtain ⟨o, h1⟩ := ih s' ho
      exact ⟨o, .step ho h1⟩

theorem Sim.ends (h : Sim step step' R) {s : σ} {t : τ} (hR : R s t) (ht : Ends step' t) : Ends step s := by
  induction ht generalizing s with
  | mk go next ih =>
    refine .mk (h.go hR) ?_
    intro s' hs
    obtain ⟨o', h1, h2⟩ := h.sim hR hs
    cases h2 with
    | next h3 => exact ih _ h1 h3

theorem Sure.steps {Q : ρ → Prop} {s s' : σ} (h : Sure step Q s) (hs : Steps step s s') : Sure step Q s' := by
  induction hs with
  | refl => exact h
  | tail _ h1 ih =>
    cases ih with
    | mk _ _ _ next => exact next _ h1

/-- Every step of the first program is a sequence of at least one step of the second, and the first never gets stuck. -/
structure SimPlus (step : σ → Res (σ ⊕ ρ) → Prop) (step' : τ → Res (τ ⊕ ρ) → Prop) (R : σ → τ → Prop) : Prop where
  go : ∀ {s t}, R s t → ∃ o, step s o
  sim : ∀ {s t o}, R s t → step s o → ∃ t' o', Steps step' t t' ∧ step' t' o' ∧ Match R o o'

/-- Sequences of steps that end with a step have a first step. -/
theorem Steps.uncons {s s' s'' : σ} (h : Steps step s s') (h' : step s' (.ok (.inl s''))) : ∃ u, step s (.ok (.inl u)) ∧ Steps step u s'' := by
  induction h generalizing s'' with
  | refl => exact ⟨s'', h', .refl _⟩
  | tail _ h4 ih =>
    obtain ⟨u, k1, k2⟩ := ih h4
    exact ⟨u, k1, .tail k2 h'⟩

theorem SimPlus.sure_of_steps (h : SimPlus step step' R) {Q : ρ → Prop} {t : τ} (ht : Sure step' Q t) :
    ∀ {t₁ : τ}, Steps step' t t₁ → ∀ {s : σ}, R s t₁ → Sure step Q s := by
  induction ht with
  | @mk t go safe fin next ih =>
    intro t₁ h1 s hs
    have ht := Sure.mk go safe fin next
    refine .mk (h.go hs) ?_ ?_ ?_
    · intro f hf
      obtain ⟨t', o', a1, a2, a3⟩ := h.sim hs hf
      cases a3
      cases ht.steps (h1.trans a1) with
      | mk _ safe _ _ => exact safe _ a2
    · intro r hr
      obtain ⟨t', o', a1, a2, a3⟩ := h.sim hs hr
      cases a3
      cases ht.steps (h1.trans a1) with
      | mk _ _ fin _ => exact fin _ a2
    · intro s' hs'
      obtain ⟨t', o', a1, a2, a3⟩ := h.sim hs hs'
      cases a3 with
      | next a4 =>
        obtain ⟨u, k1, k2⟩ := (h1.trans a1).uncons a2
        exact ih u k1 k2 a4

theorem SimPlus.sure (h : SimPlus step step' R) {Q : ρ → Prop} {s : σ} {t : τ} (hR : R s t) (ht : Sure step' Q t) : Sure step Q s :=
  h.sure_of_steps ht (.refl t) hR

end NW
