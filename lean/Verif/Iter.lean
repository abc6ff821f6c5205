import Verif.Base

/-! # Iteration: the meaning of `for (auto&& x : range)` over hand-written iterators -/

namespace NW

/-- An iterator type together with the end of the range it walks: the test `i == end`, `*i` and `++i`. -/
structure Iter (σ β : Type) where
  atEnd : σ → Res Bool
  deref : σ → Res β
  next : σ → Res σ

namespace Iter
variable {σ β : Type}

/-- One round of `for (; i != end; ++i) collect(*i)`. -/
def body (it : Iter σ β) : σ × List β → Res ((σ × List β) ⊕ List β)
  | (s, acc) => do
    let stop ← it.atEnd s
    if stop then return .inr acc
    else
      let x ← it.deref s
      let s' ← it.next s
      return .inl (s', acc ++ [x])

/-- `it.Visits s o`: the loop `for (auto i = s; i != end; ++i)` visits the elements `xs` (`o = .ok xs`) or ends in a fault.  A loop
that never ends has no `o`. -/
def Visits (it : Iter σ β) (s : σ) (o : Res (List β)) : Prop := Loop it.body (s, []) o

theorem Visits.det {it : Iter σ β} {s : σ} {o₁ o₂ : Res (List β)} (h₁ : it.Visits s o₁) (h₂ : it.Visits s o₂) : o₁ = o₂ :=
  Loop.det h₁ h₂

/-- Proof rule: `R s xs` says that from `s` the elements `xs` remain. -/
theorem visits_of (it : Iter σ β) (R : σ → List β → Prop)
    (hend : ∀ s, R s [] → it.atEnd s = .ok true)
    (hstep : ∀ s x xs, R s (x :: xs) → it.atEnd s = .ok false ∧ it.deref s = .ok x ∧ ∃ s', it.next s = .ok s' ∧ R s' xs)
    {s : σ} {xs : List β} (h : R s xs) : it.Visits s (.ok xs) := by
  have key : ∀ (xs : List β) (s : σ) (acc : List β), R s xs → Loop it.body (s, acc) (.ok (acc ++ xs)) := by
    intro xs
    induction xs with
    | nil =>
      intro s acc hR
      apply Loop.done
      simp [body, hend s hR]
    | cons x xs ih =>
      intro s acc hR
      obtain ⟨h1, h2, s', h3, h4⟩ := hstep s x xs hR
      have := ih s' (acc ++ [x]) h4
      rw [List.append_assoc] at this
      exact Loop.step (by simp [body, h1, h2, h3]) this
  have := key xs s [] h
  rwa [List.nil_append] at this

/-- Proof rule for loops that end in a fault: `R s xs` says that from `s` the elements `xs` are still visited before it. -/
theorem visits_fault_of (it : Iter σ β) (f : Fault) (R : σ → List β → Prop)
    (hend : ∀ s, R s [] → it.atEnd s = .ok false ∧ (it.deref s = .error f ∨ ∃ x, it.deref s = .ok x ∧ it.next s = .error f))
    (hstep : ∀ s x xs, R s (x :: xs) → it.atEnd s = .ok false ∧ it.deref s = .ok x ∧ ∃ s', it.next s = .ok s' ∧ R s' xs)
    {s : σ} {xs : List β} (h : R s xs) : it.Visits s (.error f) := by
  have key : ∀ (xs : List β) (s : σ) (acc : List β), R s xs → Loop it.body (s, acc) (.error f) := by
    intro xs
    induction xs with
    | nil =>
      intro s acc hR
      obtain ⟨h1, h2⟩ := hend s hR
      apply Loop.fault
      rcases h2 with h2 | ⟨x, h2, h3⟩
      · simp [body, h1, h2]
      · simp [body, h1, h2, h3]
    | cons x xs ih =>
      intro s acc hR
      obtain ⟨h1, h2, s', h3, h4⟩ := hstep s x xs hR
      exact Loop.step (by simp [body, h1, h2, h3]) (ih s' (acc ++ [x]) h4)
  exact key xs s [] h

/-- A loop that can always take another step never ends. -/
theorem not_visits_of (it : Iter σ β) (I : σ → Prop)
    (hstep : ∀ s, I s → it.atEnd s = .ok false ∧ ∃ x s', it.deref s = .ok x ∧ it.next s = .ok s' ∧ I s')
    {s : σ} (h : I s) (o : Res (List β)) : ¬ it.Visits s o := by
  intro hv
  have key : ∀ (p : σ × List β) (o : Res (List β)), Loop it.body p o → I p.1 → False := by
    intro p o hl
    induction hl with
    | done hb =>
      rename_i p r
      intro hI
      obtain ⟨h1, x, s', h2, h3, _⟩ := hstep p.1 hI
      simp [body, h1, h2, h3] at hb
    | fault hb =>
      rename_i p e
      intro hI
      obtain ⟨h1, x, s', h2, h3, _⟩ := hstep p.1 hI
      simp [body, h1, h2, h3] at hb
    | step hb hl' ih =>
      rename_i p p' o
      intro hI
      obtain ⟨h1, x, s', h2, h3, h4⟩ := hstep p.1 hI
      simp [body, h1, h2, h3] at hb
      subst hb
      exact ih h4
  exact key _ _ hv h

/-- Bounded execution, to exhibit concrete runs. -/
theorem visits_of_runFuel {it : Iter σ β} {n : Nat} {s : σ} {o : Res (List β)}
    (h : runFuel it.body n (s, []) = some o) : it.Visits s o := Loop.of_runFuel h

end Iter
end NW
