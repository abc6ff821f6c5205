import Verif.Model.BcRace

/-! # Executing `bc2_v2` under a given schedule -/

namespace NW.BcRace
open Spec

variable {α : Type}

/-- The step of task `i`, or the end of the round if all tasks are done. -/
def stepAt (c : Args α) (i : Nat) : Th → Option (Res ((Th × Option AddEv) ⊕ Unit))
  | .start root => some ((init c root).map fun x => .inl (x, none))
  | .fwd ts m phase depth =>
    if ts.all fun t => t.pc = .done then some (fJoin c m phase depth)
    else match ts[i]? with
      | none => none
      | some t => if t.pc = .done then none else some ((eTask c phase depth m t).map fun x => .inl (.fwd (ts.set i x.2) x.1 phase depth, none))
  | .back ts deltas m phase =>
    if ts.all fun t => t.done then some (retreat deltas m phase)
    else match ts[i]? with
      | none => none
      | some t => if t.done then none else some ((bTask m deltas t).map fun x => .inl (.back (ts.set i x.2.1) x.1 m phase, x.2.2))

theorem stepAt_sound {c : Args α} {i : Nat} {s : Th} {o : Res ((Th × Option AddEv) ⊕ Unit)} (h : stepAt c i s = some o) : VStep c s o := by
  cases s with
  | start root => cases h; exact .start
  | fwd ts m phase depth =>
    simp only [stepAt] at h
    split at h
    · rename_i hall
      cases h
      exact .fJoin (by simpa using hall)
    · cases hi : ts[i]? with
      | none => rw [hi] at h; cases h
      | some t =>
        rw [hi] at h
        dsimp only at h
        split at h
        · cases h
        · rename_i hd; cases h; exact .fStep hi hd
  | back ts deltas m phase =>
    simp only [stepAt] at h
    split at h
    · rename_i hall
      cases h
      exact .bJoin (by simpa using hall)
    · cases hi : ts[i]? with
      | none => rw [hi] at h; cases h
      | some t =>
        rw [hi] at h
        dsimp only at h
        split at h
        · cases h
        · rename_i hd; cases h; exact .bStep hi (by simpa using hd)

/-- The result of the run of one source alone under a schedule; what it adds, applied to `b`. -/
def follow (c : Args α) : List Nat → Th → List ℚ → Option (List ℚ)
  | [], _, _ => none
  | i :: is, s, b => match stepAt c i s with
    | some (.ok (.inl (s', none))) => follow c is s' b
    | some (.ok (.inl (s', some e))) => match addTo b e with
      | .ok b' => follow c is s' b'
      | .error _ => none
    | some (.ok (.inr ())) => some b
    | _ => none

theorem follow_sound {c : Args α} {ρ : Type} {fin : List ℚ → Res ρ} {is : List Nat} {s : Th} {b r : List ℚ} {x : ρ} (h : follow c is s b = some r) (hx : fin r = .ok x) :
    Runs (Serial (VStep c) fin) ([s], b) (.ok x) := by
  induction is generalizing s b with
  | nil => cases h
  | cons i is ih =>
    unfold follow at h
    split at h
    · rename_i s' hs; exact .step (.local (stepAt_sound hs)) (ih h)
    · rename_i s' e hs
      split at h
      · rename_i b' hb
        have := Serial.add (fin := fin) (todo := []) (b := b) (stepAt_sound hs)
        rw [hb] at this
        exact .step this (ih h)
      · cases h
    · rename_i hs
      cases h
      have := Serial.done (T := VStep c) (fin := fin) (b := r)
      rw [hx] at this
      exact .step (.stop (stepAt_sound hs)) (.done this)
    · cases h

end NW.BcRace
