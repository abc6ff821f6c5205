import Verif.Base

/-!
# Sequential code with loops and choices

`Run α` is the set of outcomes of a computation, so that loops (`Loop`) and unspecified library choices can be combined with `do`.  A computation that
runs forever has no outcome.
-/

namespace NW

/-- The set of possible outcomes of a computation. -/
def Run (α : Type) : Type := Res α → Prop

namespace Run

variable {α β : Type}

/-- A computation with one outcome. -/
def lift (r : Res α) : Run α := fun o => o = r

/-- Sequencing: a fault of the first part is the outcome of the whole. -/
def seq (m : Run α) (k : α → Run β) : Run β := fun o => (∃ a, m (.ok a) ∧ k a o) ∨ (∃ f, m (.error f) ∧ o = .error f)

instance : Monad Run where
  pure a := lift (.ok a)
  bind := seq

instance : MonadLift Res Run := ⟨lift⟩

/-- A loop. -/
def loop {σ ρ : Type} (body : σ → Res (σ ⊕ ρ)) (s : σ) : Run ρ := Loop body s

/-- An unspecified value with the given property. -/
def choose (p : α → Prop) : Run α := fun o => ∃ a, p a ∧ o = .ok a

/-- There is an outcome, and every outcome is a value satisfying `Q`. -/
def Gives (m : Run α) (Q : α → Prop) : Prop := (∃ o, m o) ∧ ∀ o, m o → ∃ a, o = .ok a ∧ Q a

/-- There is an outcome, and every outcome is the fault `f`. -/
def Faults (m : Run α) (f : Fault) : Prop := (∃ o, m o) ∧ ∀ o, m o → o = .error f

/-- There is one outcome at most. -/
def Det (m : Run α) : Prop := ∀ o o', m o → m o' → o = o'

theorem Gives.exists {m : Run α} {Q : α → Prop} (h : Gives m Q) : ∃ a, m (.ok a) ∧ Q a := by
  obtain ⟨⟨o, ho⟩, h2⟩ := h
  obtain ⟨a, rfl, hq⟩ := h2 o ho
  exact ⟨a, ho, hq⟩

theorem Gives.mono {m : Run α} {Q Q' : α → Prop} (h : Gives m Q) (hq : ∀ a, Q a → Q' a) : Gives m Q' :=
  ⟨h.1, fun o ho => by obtain ⟨a, e, q⟩ := h.2 o ho; exact ⟨a, e, hq a q⟩⟩

theorem gives_lift {r : Res α} {a : α} {Q : α → Prop} (h : r = .ok a) (hq : Q a) : Gives (lift r) Q := by
  subst h
  exact ⟨⟨_, rfl⟩, fun o ho => ⟨a, ho, hq⟩⟩

theorem gives_pure {a : α} {Q : α → Prop} (hq : Q a) : Gives (Pure.pure a : Run α) Q := gives_lift rfl hq

theorem Gives.bind {m : Run α} {k : α → Run β} {Q : α → Prop} {Q' : β → Prop} (h : Gives m Q) (hk : ∀ a, Q a → Gives (k a) Q') :
    Gives (m >>= k) Q' := by
  refine ⟨?_, ?_⟩
  · obtain ⟨a, ha, hq⟩ := h.exists
    obtain ⟨o, ho⟩ := (hk a hq).1
    exact ⟨o, Or.inl ⟨a, ha, ho⟩⟩
  · rintro o (⟨a, ha, ho⟩ | ⟨f, hf, -⟩)
    · obtain ⟨b, e, hq⟩ := h.2 _ ha
      cases e
      exact (hk a hq).2 o ho
    · obtain ⟨b, e, -⟩ := h.2 _ hf
      cases e

theorem gives_loop {σ ρ : Type} {body : σ → Res (σ ⊕ ρ)} (I : σ → Prop) (m : σ → Nat) {Q : ρ → Prop}
    (hstep : ∀ s, I s → (∃ s', body s = .ok (.inl s') ∧ I s' ∧ m s' < m s) ∨ (∃ r, body s = .ok (.inr r) ∧ Q r)) (s : σ) (hs : I s) :
    Gives (loop body s) Q := by
  obtain ⟨s', r, h1, h2, h3⟩ := Loop.total I m (fun s hs => by
    rcases hstep s hs with h | ⟨r, h, -⟩
    · exact Or.inl h
    · exact Or.inr ⟨r, h⟩) s hs
  refine ⟨⟨_, h3⟩, ?_⟩
  intro o ho
  refine ⟨r, Loop.det ho h3, ?_⟩
  rcases hstep s' h1 with ⟨s'', h, -, -⟩ | ⟨r', h, hq⟩
  · rw [h2] at h; cases h
  · rw [h2] at h; cases h; exact hq

theorem gives_choose {p : α → Prop} {Q : α → Prop} (h : ∃ a, p a) (hq : ∀ a, p a → Q a) : Gives (choose p) Q := by
  refine ⟨?_, ?_⟩
  · obtain ⟨a, ha⟩ := h; exact ⟨_, a, ha, rfl⟩
  · rintro o ⟨a, ha, rfl⟩; exact ⟨a, rfl, hq a ha⟩

theorem gives_foldlM {σ : Type} {f : σ → α → Run σ} {l : List α} (I : List α → σ → Prop) {s : σ} (h0 : I [] s)
    (hstep : ∀ pre x post, l = pre ++ x :: post → ∀ s, I pre s → Gives (f s x) (I (pre ++ [x]))) : Gives (l.foldlM f s) (I l) := by
  have aux : ∀ (post pre : List α) (s : σ), l = pre ++ post → I pre s → Gives (post.foldlM f s) (I l) := by
    intro post
    induction post with
    | nil => intro pre s hl hi; rw [List.append_nil] at hl; subst hl; exact gives_pure hi
    | cons x post ih =>
      intro pre s hl hi
      rw [List.foldlM_cons]
      exact (hstep pre x post hl s hi).bind fun s' hs' => ih (pre ++ [x]) s' (by rw [hl]; simp) hs'
  exact aux l [] s rfl h0

theorem Faults.bind {m : Run α} {k : α → Run β} {f : Fault} (h : Faults m f) : Faults (m >>= k) f := by
  obtain ⟨⟨o, ho⟩, h2⟩ := h
  have := h2 o ho
  subst this
  refine ⟨⟨_, Or.inr ⟨f, ho, rfl⟩⟩, ?_⟩
  rintro o (⟨a, ha, -⟩ | ⟨f', hf, rfl⟩)
  · cases h2 _ ha
  · cases h2 _ hf; rfl

theorem Gives.bind_faults {m : Run α} {k : α → Run β} {Q : α → Prop} {f : Fault} (h : Gives m Q) (hk : ∀ a, Q a → Faults (k a) f) :
    Faults (m >>= k) f := by
  refine ⟨?_, ?_⟩
  · obtain ⟨a, ha, hq⟩ := h.exists
    obtain ⟨o, ho⟩ := (hk a hq).1
    exact ⟨o, Or.inl ⟨a, ha, ho⟩⟩
  · rintro o (⟨a, ha, ho⟩ | ⟨f, hf, -⟩)
    · obtain ⟨b, e, hq⟩ := h.2 _ ha
      cases e
      exact (hk a hq).2 o ho
    · obtain ⟨b, e, -⟩ := h.2 _ hf
      cases e

theorem faults_lift {r : Res α} {f : Fault} (h : r = .error f) : Faults (lift r) f := ⟨⟨_, rfl⟩, fun _ ho => ho.trans h⟩

theorem det_lift (r : Res α) : Det (lift r) := fun _ _ h h' => h.trans h'.symm

theorem det_loop {σ ρ : Type} (body : σ → Res (σ ⊕ ρ)) (s : σ) : Det (loop body s) := fun _ _ h h' => Loop.det h h'

theorem Det.bind {m : Run α} {k : α → Run β} (h : Det m) (hk : ∀ a, Det (k a)) : Det (m >>= k) := by
  rintro o o' (⟨a, ha, ho⟩ | ⟨f, hf, rfl⟩) (⟨a', ha', ho'⟩ | ⟨f', hf', rfl⟩)
  · cases h _ _ ha ha'; exact hk a o o' ho ho'
  · cases h _ _ ha hf'
  · cases h _ _ hf ha'
  · cases h _ _ hf hf'; rfl

end Run

end NW
