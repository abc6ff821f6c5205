import Verif.Team
import Verif.ConcurSim

/-!
# Runs that follow one another and share a vector of sums

Like `Team`, but the second run starts when the first has ended, and so on.
-/

namespace NW

variable {σ ρ : Type}

/-- The steps of the runs in `todo`, one after another; at the end the vector is handed to `fin`. -/
inductive Serial (T : σ → Res ((σ × Option AddEv) ⊕ Unit) → Prop) (fin : List ℚ → Res ρ) : List σ × List ℚ → Res ((List σ × List ℚ) ⊕ ρ) → Prop
  | local {s s' : σ} {todo : List σ} {b : List ℚ} (h : T s (.ok (.inl (s', none)))) : Serial T fin (s :: todo, b) (.ok (.inl (s' :: todo, b)))
  | add {s s' : σ} {todo : List σ} {b : List ℚ} {e : AddEv} (h : T s (.ok (.inl (s', some e)))) :
      Serial T fin (s :: todo, b) ((addTo b e).map fun b' => .inl (s' :: todo, b'))
  | fault {s : σ} {todo : List σ} {b : List ℚ} {f : Fault} (h : T s (.error f)) : Serial T fin (s :: todo, b) (.error f)
  | stop {s : σ} {todo : List σ} {b : List ℚ} (h : T s (.ok (.inr ()))) : Serial T fin (s :: todo, b) (.ok (.inl (todo, b)))
  | done {b : List ℚ} : Serial T fin ([], b) ((fin b).map .inr)

variable {T : σ → Res ((σ × Option AddEv) ⊕ Unit) → Prop} {fin : List ℚ → Res ρ}

theorem set_lead {τ : Type} (k : Nat) (x y z : τ) (l : List τ) : (List.replicate k x ++ y :: l).set k z = List.replicate k x ++ z :: l := by
  rw [List.set_append_right _ _ (by simp)]; simp

/-- The first `k` threads of the team have ended; the others correspond to the runs that have not. -/
def Lead (x : List σ × List ℚ) (y : List (Option σ) × List ℚ) : Prop := ∃ k, y = (List.replicate k none ++ x.1.map some, x.2)

/-- What every schedule of the team establishes is established by the runs one after another. -/
theorem Serial.sure_of_team {Q : List ℚ → Prop} {Q' : ρ → Prop} (hT : ∀ s, ∃ o, T s o) (hfin : ∀ b, Q b → ∃ r, fin b = .ok r ∧ Q' r) {y : List (Option σ) × List ℚ}
    (h : Sure (Team T) Q y) : ∀ {x : List σ × List ℚ}, Lead x y → Sure (Serial T fin) Q' x := by
  induction h with
  | @mk y go safe finh next ih =>
    rintro ⟨l, b⟩ ⟨k, rfl⟩
    cases l with
    | nil =>
      have hj := Team.join (T := T) (ths := List.replicate k none ++ ([] : List σ).map some) (b := b) (by simp)
      obtain ⟨r, h1, h2⟩ := hfin b (finh _ hj)
      have key : ∀ o, Serial T fin ([], b) o → o = .ok (.inr r) := by
        intro o ho
        cases ho; rw [h1]; rfl
      exact .mk ⟨_, .done⟩ (fun f hf => by cases key _ hf) (fun r' hr => by cases key _ hr; exact h2) (fun s' hs => by cases key _ hs)
    | cons s todo =>
      have hk : (List.replicate k (none : Option σ) ++ (s :: todo).map some)[k]? = some (some s) := by simp
      refine .mk ?_ ?_ ?_ ?_
      · obtain ⟨o, ho⟩ := hT s
        match o, ho with
        | .error f, ho => exact ⟨_, .fault ho⟩
        | .ok (.inr ()), ho => exact ⟨_, .stop ho⟩
        | .ok (.inl (s', none)), ho => exact ⟨_, .local ho⟩
        | .ok (.inl (s', some e)), ho => exact ⟨_, .add ho⟩
      · intro f hf
        generalize ho : (Except.error f : Res ((List σ × List ℚ) ⊕ ρ)) = o at hf
        cases hf with
        | «local» h => cases ho
        | add h =>
          have := Team.add (b := b) hk h
          rename_i s' e
          cases ha : addTo b e with
          | error f' => rw [ha] at this; exact safe _ this
          | ok b' => rw [ha] at ho; cases ho
        | fault h => exact safe _ (Team.fault (b := b) hk h)
        | stop h => cases ho
      · intro r hr
        generalize ho : (Except.ok (Sum.inr r) : Res ((List σ × List ℚ) ⊕ ρ)) = o at hr
        cases hr with
        | «local» h => cases ho
        | add h => rename_i s' e; cases ha : addTo b e <;> rw [ha] at ho <;> cases ho
        | fault h => cases ho
        | stop h => cases ho
      · intro x hx
        generalize ho : (Except.ok (Sum.inl x) : Res ((List σ × List ℚ) ⊕ ρ)) = o at hx
        cases hx with
        | «local» h =>
          cases ho
          refine ih _ (Team.local hk h) ⟨k, ?_⟩
          rw [List.map_cons, set_lead]; rfl
        | add h =>
          have := Team.add (b := b) hk h
          rename_i s' e
          cases ha : addTo b e with
          | error f' => rw [ha] at ho; cases ho
          | ok b' =>
            rw [ha] at ho this; cases ho
            refine ih _ this ⟨k, ?_⟩
            rw [List.map_cons, set_lead]; rfl
        | fault h => cases ho
        | stop h =>
          cases ho
          refine ih _ (Team.stop hk h) ⟨k + 1, ?_⟩
          rw [List.map_cons, set_lead, List.replicate_succ', List.append_assoc]; rfl

end NW
