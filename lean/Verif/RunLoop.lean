import Verif.Run

/-!
# Loops whose bodies contain loops, and concrete outcomes
-/

namespace NW

/-- The outcomes of a loop whose body is itself a computation with loops: `.inl` is the state of the next round, `.inr` the result. -/
inductive LoopR {σ ρ : Type} (body : σ → Run (σ ⊕ ρ)) : σ → Res ρ → Prop
  | done {s : σ} {r : ρ} : body s (.ok (.inr r)) → LoopR body s (.ok r)
  | fault {s : σ} {f : Fault} : body s (.error f) → LoopR body s (.error f)
  | step {s s' : σ} {o : Res ρ} : body s (.ok (.inl s')) → LoopR body s' o → LoopR body s o

namespace Run

variable {α β σ ρ : Type}

/-- A loop with such a body. -/
def loopR (body : σ → Run (σ ⊕ ρ)) (s : σ) : Run ρ := LoopR body s

theorem gives_loopR {body : σ → Run (σ ⊕ ρ)} (I : σ → Prop) {X : Type} (rel : X → X → Prop) (wf : WellFounded rel) (m : σ → X) {Q : ρ → Prop}
    (hstep : ∀ s, I s → Gives (body s) fun x => match x with
      | .inl s' => I s' ∧ rel (m s') (m s)
      | .inr r => Q r) (s : σ) (hs : I s) : Gives (loopR body s) Q := by
  have key : ∀ x, ∀ s, m s = x → I s → Gives (loopR body s) Q := by
    intro x
    induction x using wf.induction with
    | _ x ih =>
      intro s hx hs
      have h := hstep s hs
      refine ⟨?_, ?_⟩
      · obtain ⟨a, h1, h2⟩ := h.exists
        cases a with
        | inl s' =>
          obtain ⟨o, ho⟩ := (ih (m s') (hx ▸ h2.2) s' rfl h2.1).1
          exact ⟨o, LoopR.step h1 ho⟩
        | inr r => exact ⟨_, LoopR.done h1⟩
      · intro o ho
        cases ho with
        | done h1 =>
          obtain ⟨a, e, h2⟩ := h.2 _ h1
          cases e
          exact ⟨_, rfl, h2⟩
        | fault h1 =>
          obtain ⟨a, e, h2⟩ := h.2 _ h1
          cases e
        | step h1 h3 =>
          obtain ⟨a, e, h2⟩ := h.2 _ h1
          cases e
          exact (ih _ (hx ▸ h2.2) _ rfl h2.1).2 o h3
  exact key _ s rfl hs

/-- Without termination: every outcome there is. -/
theorem all_loopR {body : σ → Run (σ ⊕ ρ)} (I : σ → Prop) {Q : ρ → Prop}
    (hstep : ∀ s, I s → Gives (body s) fun x => match x with
      | .inl s' => I s'
      | .inr r => Q r) {s : σ} (hs : I s) {o : Res ρ} (h : loopR body s o) : ∃ r, o = .ok r ∧ Q r := by
  replace h : LoopR body s o := h
  induction h with
  | done h1 =>
    obtain ⟨a, e, h2⟩ := (hstep _ hs).2 _ h1
    cases e
    exact ⟨_, rfl, h2⟩
  | fault h1 =>
    obtain ⟨a, e, h2⟩ := (hstep _ hs).2 _ h1
    cases e
  | step h1 _ ih =>
    obtain ⟨a, e, h2⟩ := (hstep _ hs).2 _ h1
    cases e
    exact ih h2

/-- A value, if it has been computed, is the one outcome of the computation.  Used only to exhibit concrete outcomes. -/
structure Sim (m : Run α) where
  val : Option (Res α)
  sound : ∀ r, val = some r → ∀ o, m o ↔ o = r

namespace Sim

def lift (r : Res α) : Sim (Run.lift r) := ⟨some r, by intro r' h; cases h; exact fun o => Iff.rfl⟩

def ret (a : α) : Sim (Pure.pure a : Run α) := ⟨some (.ok a), by intro r' h; cases h; exact fun o => Iff.rfl⟩

def bind {m : Run α} {k : α → Run β} (a : Sim m) (b : ∀ x, Sim (k x)) : Sim (m >>= k) where
  val := match a.val with
    | some (.ok x) => (b x).val
    | some (.error f) => some (.error f)
    | none => none
  sound := by
    intro r h o
    split at h
    · rename_i x hx
      have h1 := a.sound _ hx
      have h2 := (b x).sound _ h
      constructor
      · rintro (⟨y, hy, ho⟩ | ⟨f, hf, -⟩)
        · cases (h1 _).1 hy
          exact (h2 _).1 ho
        · cases (h1 _).1 hf
      · intro e
        exact Or.inl ⟨x, (h1 _).2 rfl, (h2 _).2 e⟩
    · rename_i f hx
      cases h
      have h1 := a.sound _ hx
      constructor
      · rintro (⟨y, hy, ho⟩ | ⟨f, hf, e⟩)
        · cases (h1 _).1 hy
        · cases (h1 _).1 hf; exact e
      · rintro rfl
        exact Or.inr ⟨f, (h1 _).2 rfl, rfl⟩
    · cases h

def ite {c : Prop} [Decidable c] {m m' : Run α} (a : Sim m) (b : Sim m') : Sim (if c then m else m') where
  val := if c then a.val else b.val
  sound := by
    intro r h o
    split at h
    · rename_i hc; rw [if_pos hc]; exact a.sound r h o
    · rename_i hc; rw [if_neg hc]; exact b.sound r h o

def loop (fuel : Nat) (body : σ → Res (σ ⊕ ρ)) (s : σ) : Sim (Run.loop body s) where
  val := runFuel body fuel s
  sound := by
    intro r h o
    exact ⟨fun ho => Loop.det ho (Loop.of_runFuel h), fun e => e ▸ Loop.of_runFuel h⟩

def loopR {body : σ → Run (σ ⊕ ρ)} (b : ∀ s, Sim (body s)) : Nat → ∀ s, Sim (Run.loopR body s)
  | 0, _ => ⟨none, by intro r h; cases h⟩
  | fuel + 1, s => {
      val := match (b s).val with
        | some (.ok (.inl s')) => (loopR b fuel s').val
        | some (.ok (.inr r)) => some (.ok r)
        | some (.error f) => some (.error f)
        | none => none
      sound := by
        intro r h o
        split at h
        · rename_i s' hx
          have h1 := (b s).sound _ hx
          have h2 := (loopR b fuel s').sound _ h
          constructor
          · intro ho
            cases ho with
            | done h3 => cases (h1 _).1 h3
            | fault h3 => cases (h1 _).1 h3
            | step h3 h4 => cases (h1 _).1 h3; exact (h2 _).1 h4
          · intro e
            exact LoopR.step ((h1 _).2 rfl) ((h2 _).2 e)
        · rename_i r' hx
          cases h
          have h1 := (b s).sound _ hx
          constructor
          · intro ho
            cases ho with
            | done h3 => cases (h1 _).1 h3; rfl
            | fault h3 => cases (h1 _).1 h3
            | step h3 h4 => cases (h1 _).1 h3
          · rintro rfl
            exact LoopR.done ((h1 _).2 rfl)
        · rename_i f hx
          cases h
          have h1 := (b s).sound _ hx
          constructor
          · intro ho
            cases ho with
            | done h3 => cases (h1 _).1 h3
            | fault h3 => cases (h1 _).1 h3; rfl
            | step h3 h4 => cases (h1 _).1 h3
          · rintro rfl
            exact LoopR.fault ((h1 _).2 rfl)
        · cases h }

def foldlM {f : σ → α → Run σ} (b : ∀ s x, Sim (f s x)) : ∀ (l : List α) (s : σ), Sim (l.foldlM f s)
  | [], s => ret s
  | x :: l, s => by rw [List.foldlM_cons]; exact bind (b s x) fun s' => foldlM b l s'

theorem gives {m : Run α} (a : Sim m) {x : α} (h : a.val = some (.ok x)) : Gives m (fun y => y = x) :=
  ⟨⟨_, (a.sound _ h _).2 rfl⟩, fun _ ho => ⟨x, (a.sound _ h _).1 ho, rfl⟩⟩

end Sim

end Run

end NW
