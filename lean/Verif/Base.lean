/-!
# Outcomes, checked access and loops

Shared vocabulary of the model.  Nothing here models a particular NWGraph function; it fixes how
undefined behaviour, failed assertions and non-termination of the C++ code appear in the model.
-/

namespace NW

/-- Everything that can go wrong when a modelled C++ function runs. -/
inductive Fault where
  /-- `v[i]` or an iterator dereference outside the container. -/
  | outOfBounds
  /-- `assert(...)` failed. -/
  | assertFailed
  /-- `front()`, `top()` or `pop()` on an empty container. -/
  | emptyContainer
  /-- Integer division or remainder by zero. -/
  | divByZero
  /-- A read of an uninitialised variable. -/
  | uninitialised
  /-- A write outside the object that was meant (for example an over-long `istream::read`). -/
  | memoryClobbered
  /-- `throw;` without an active exception, i.e. `std::terminate`. -/
  | terminated
  /-- `istream::read` hit the end of the file (the code goes on with whatever was in the variables). -/
  | shortRead
  deriving DecidableEq, Repr

/-- Outcome of a modelled computation: a value, or a fault. -/
abbrev Res (α : Type) := Except Fault α

instance {ε α : Type} [DecidableEq ε] [DecidableEq α] : DecidableEq (Except ε α)
  | .ok a, .ok b => if h : a = b then isTrue (by rw [h]) else isFalse (by intro h'; cases h'; exact h rfl)
  | .error a, .error b => if h : a = b then isTrue (by rw [h]) else isFalse (by intro h'; cases h'; exact h rfl)
  | .ok _, .error _ => isFalse (by intro h; cases h)
  | .error _, .ok _ => isFalse (by intro h; cases h)

/-- `v[i]` on a `std::vector`. -/
def vget {α : Type} (v : List α) (i : Nat) : Res α :=
  match v[i]? with
  | some a => .ok a
  | none => .error .outOfBounds

/-- `v[i] = a` on a `std::vector`. -/
def vset {α : Type} (v : List α) (i : Nat) (a : α) : Res (List α) :=
  if i < v.length then .ok (v.set i a) else .error .outOfBounds

/-- `assert(b)`. -/
def check (b : Bool) : Res Unit := if b then .ok () else .error .assertFailed

/-- Big-step semantics of `while` loops.  `body s` is one evaluation of the loop head and body: it either
continues with a new state (`.inl`), leaves the loop with a result (`.inr`), or faults.
A loop that runs forever is related to no outcome. -/
inductive Loop {σ ρ : Type} (body : σ → Res (σ ⊕ ρ)) : σ → Res ρ → Prop where
  | done {s : σ} {r : ρ} (h : body s = .ok (.inr r)) : Loop body s (.ok r)
  | fault {s : σ} {e : Fault} (h : body s = .error e) : Loop body s (.error e)
  | step {s s' : σ} {o : Res ρ} (h : body s = .ok (.inl s')) (hs : Loop body s' o) : Loop body s o

/-- Total correctness: an invariant indexed by a bound on the remaining rounds. -/
theorem Loop.of_rank {σ ρ : Type} {body : σ → Res (σ ⊕ ρ)} (I : Nat → σ → Prop) (Q : ρ → Prop)
    (hstep : ∀ k s, I k s → (∃ r, body s = .ok (.inr r) ∧ Q r) ∨ (∃ s' k', body s = .ok (.inl s') ∧ k' < k ∧ I k' s'))
    {k : Nat} {s : σ} (h : I k s) : ∃ r, Loop body s (.ok r) ∧ Q r := by
  induction k using Nat.strongRecOn generalizing s with
  | ind k ih =>
    rcases hstep k s h with ⟨r, hr, hq⟩ | ⟨s', k', hb, hlt, hi⟩
    · exact ⟨r, .done hr, hq⟩
    · obtain ⟨r, hl, hq⟩ := ih k' hlt hi
      exact ⟨r, .step hb hl, hq⟩

/-- A loop has at most one outcome. -/
theorem Loop.det {σ ρ : Type} {body : σ → Res (σ ⊕ ρ)} {s : σ} {o₁ o₂ : Res ρ}
    (h₁ : Loop body s o₁) (h₂ : Loop body s o₂) : o₁ = o₂ := by
  induction h₁ with
  | done h => cases h₂ <;> simp_all
  | fault h => cases h₂ <;> simp_all
  | step h _ ih =>
    cases h₂ with
    | done h' => simp_all
    | fault h' => simp_all
    | step h' hs' =>
      rw [h] at h'
      cases h'
      exact ih hs'

/-- Invariant rule for loops: if `I` is kept by every iteration, no iteration from a state satisfying `I`
faults, and the variant `m` decreases, then the loop terminates normally, and in the last state
`I` held and the exit was taken. -/
theorem Loop.total {σ ρ : Type} {body : σ → Res (σ ⊕ ρ)} (I : σ → Prop) (m : σ → Nat)
    (hstep : ∀ s, I s → (∃ s', body s = .ok (.inl s') ∧ I s' ∧ m s' < m s) ∨
      (∃ r, body s = .ok (.inr r))) (s : σ) (hs : I s) :
    ∃ s' r, I s' ∧ body s' = .ok (.inr r) ∧ Loop body s (.ok r) := by
  generalize hn : m s = n
  induction n using Nat.strongRecOn generalizing s with
  | _ n ih =>
    rcases hstep s hs with ⟨s', hb, hI, hm⟩ | ⟨r, hb⟩
    · obtain ⟨s'', r, h1, h2, h3⟩ := ih (m s') (hn ▸ hm) s' hI rfl
      exact ⟨s'', r, h1, h2, Loop.step hb h3⟩
    · exact ⟨s, r, hs, hb, Loop.done hb⟩

/-- Invariant rule with a well-founded relation instead of a numeric variant. -/
theorem Loop.totalWf {σ ρ τ : Type} {body : σ → Res (σ ⊕ ρ)} (I : σ → Prop) (m : σ → τ)
    {lt : τ → τ → Prop} (wf : WellFounded lt)
    (hstep : ∀ s, I s → (∃ s', body s = .ok (.inl s') ∧ I s' ∧ lt (m s') (m s)) ∨
      (∃ r, body s = .ok (.inr r))) (s : σ) (hs : I s) :
    ∃ s' r, I s' ∧ body s' = .ok (.inr r) ∧ Loop body s (.ok r) := by
  generalize hn : m s = n
  induction n using wf.induction generalizing s with
  | _ n ih =>
    rcases hstep s hs with ⟨s', hb, hI, hm⟩ | ⟨r, hb⟩
    · obtain ⟨s'', r, h1, h2, h3⟩ := ih (m s') (hn ▸ hm) s' hI rfl
      exact ⟨s'', r, h1, h2, Loop.step hb h3⟩
    · exact ⟨s, r, hs, hb, Loop.done hb⟩

/-- Run a loop for at most `n` iterations; used only to exhibit concrete outcomes. -/
def runFuel {σ ρ : Type} (body : σ → Res (σ ⊕ ρ)) : Nat → σ → Option (Res ρ)
  | 0, _ => none
  | n + 1, s =>
    match body s with
    | .ok (.inr r) => some (.ok r)
    | .error e => some (.error e)
    | .ok (.inl s') => runFuel body n s'

theorem Loop.of_runFuel {σ ρ : Type} {body : σ → Res (σ ⊕ ρ)} {n : Nat} {s : σ} {o : Res ρ}
    (h : runFuel body n s = some o) : Loop body s o := by
  induction n generalizing s with
  | zero => simp [runFuel] at h
  | succ n ih =>
    unfold runFuel at h
    split at h
    · next hb => cases h; exact .done hb
    · next hb => cases h; exact .fault hb
    · next hb => exact .step hb (ih h)

/-! Basic facts about checked access. -/

@[simp] theorem vget_eq_ok {α : Type} {v : List α} {i : Nat} {a : α} :
    vget v i = .ok a ↔ v[i]? = some a := by
  unfold vget; cases v[i]? <;> simp

theorem vget_of_lt {α : Type} {v : List α} {i : Nat} (h : i < v.length) :
    vget v i = .ok v[i] := by
  unfold vget; rw [List.getElem?_eq_getElem h]

theorem vget_of_ge {α : Type} {v : List α} {i : Nat} (h : v.length ≤ i) :
    vget v i = .error .outOfBounds := by
  unfold vget; rw [List.getElem?_eq_none h]

theorem vset_of_lt {α : Type} {v : List α} {i : Nat} {a : α} (h : i < v.length) :
    vset v i a = .ok (v.set i a) := by
  unfold vset; rw [if_pos h]

theorem vset_of_ge {α : Type} {v : List α} {i : Nat} {a : α} (h : v.length ≤ i) :
    vset v i a = .error .outOfBounds := by
  unfold vset; rw [if_neg (by omega)]

@[simp] theorem res_bind_ok {α β : Type} (a : α) (f : α → Res β) :
    (Except.ok a >>= f : Res β) = f a := rfl

@[simp] theorem res_bind_error {α β : Type} (e : Fault) (f : α → Res β) :
    (Except.error e >>= f : Res β) = .error e := rfl

theorem res_bind_self {α : Type} (x : Res α) : (x >>= fun a => Except.ok a) = x := by
  cases x <;> rfl

@[simp] theorem res_pure {α : Type} (a : α) : (pure a : Res α) = .ok a := rfl

end NW
