import Verif.Concur
import Mathlib.Data.Rat.Defs
import Mathlib.Algebra.Field.Rat
import Mathlib.Tactic.Ring

/-!
# Threads that share only a vector of sums

Each thread runs on its own state; from time to time it adds a number to an entry of a shared vector (an atomic fetch-and-add).
-/

namespace NW

/-- "Add `x` to entry `v`." -/
abbrev AddEv := Nat × ℚ

variable {σ : Type}

/-- The shared vector after an addition. -/
def addTo (b : List ℚ) (e : AddEv) : Res (List ℚ) := do
  let x ← vget b e.1
  vset b e.1 (x + e.2)

/-- The steps of a team of threads, each of which steps by `T`: it continues in a new state, making at most one addition, or it ends.  A thread that has
ended is `none`. -/
inductive Team (T : σ → Res ((σ × Option AddEv) ⊕ Unit) → Prop) : List (Option σ) × List ℚ → Res ((List (Option σ) × List ℚ) ⊕ List ℚ) → Prop
  | local {ths : List (Option σ)} {b : List ℚ} {i : Nat} {s s' : σ} (hi : ths[i]? = some (some s)) (h : T s (.ok (.inl (s', none)))) :
      Team T (ths, b) (.ok (.inl (ths.set i (some s'), b)))
  | add {ths : List (Option σ)} {b : List ℚ} {i : Nat} {s s' : σ} {e : AddEv} (hi : ths[i]? = some (some s)) (h : T s (.ok (.inl (s', some e)))) :
      Team T (ths, b) ((addTo b e).map fun b' => .inl (ths.set i (some s'), b'))
  | fault {ths : List (Option σ)} {b : List ℚ} {i : Nat} {s : σ} {f : Fault} (hi : ths[i]? = some (some s)) (h : T s (.error f)) :
      Team T (ths, b) (.error f)
  | stop {ths : List (Option σ)} {b : List ℚ} {i : Nat} {s : σ} (hi : ths[i]? = some (some s)) (h : T s (.ok (.inr ()))) :
      Team T (ths, b) (.ok (.inl (ths.set i none, b)))
  | join {ths : List (Option σ)} {b : List ℚ} (h : ∀ t ∈ ths, t = none) : Team T (ths, b) (.ok (.inr b))

/-- One thread alone, with the list of the additions it has made. -/
inductive Logged (T : σ → Res ((σ × Option AddEv) ⊕ Unit) → Prop) : σ × List AddEv → Res ((σ × List AddEv) ⊕ List AddEv) → Prop
  | go {s s' : σ} {log : List AddEv} {e : Option AddEv} (h : T s (.ok (.inl (s', e)))) : Logged T (s, log) (.ok (.inl (s', log ++ e.toList)))
  | fault {s : σ} {log : List AddEv} {f : Fault} (h : T s (.error f)) : Logged T (s, log) (.error f)
  | stop {s : σ} {log : List AddEv} (h : T s (.ok (.inr ()))) : Logged T (s, log) (.ok (.inr log))

/-- The sum of the additions to entry `v`. -/
def logSum (log : List AddEv) (v : Nat) : ℚ := (log.map fun e => if e.1 = v then e.2 else 0).sum

theorem logSum_append (l l' : List AddEv) (v : Nat) : logSum (l ++ l') v = logSum l v + logSum l' v := by
  simp [logSum]

theorem Logged.prefix {T : σ → Res ((σ × Option AddEv) ⊕ Unit) → Prop} {x : σ × List AddEv} {o : Res (List AddEv)} (h : Runs (Logged T) x o)
    {r : List AddEv} (ho : o = .ok r) : x.2 <+: r := by
  induction h with
  | done hs => cases ho; cases hs; exact List.prefix_refl _
  | fault hs => cases ho
  | step hs _ ih =>
    cases hs with
    | go h => exact (List.prefix_append _ _).trans (ih ho)

/-- Moving one entry of a list. -/
def Moves {τ : Type} (r : τ → τ → Prop) (l' l : List τ) : Prop := ∃ i x y, l[i]? = some x ∧ r y x ∧ l' = l.set i y

theorem acc_moves {τ : Type} {r : τ → τ → Prop} (l : List τ) (h : ∀ x ∈ l, Acc r x) : Acc (Moves r) l := by
  induction l with
  | nil =>
    refine ⟨_, ?_⟩
    rintro l' ⟨i, x, y, hi, -⟩
    simp at hi
  | cons x xs ih =>
    have h2 := ih fun y hy => h y (by simp [hy])
    have h1 := h x (by simp)
    clear ih h
    induction h1 generalizing xs with
    | intro x _ ih1 =>
      induction h2 with
      | intro xs hxs ih2 =>
        refine ⟨_, ?_⟩
        rintro l' ⟨i, a, y, hi, hr, rfl⟩
        cases i with
        | zero =>
          simp at hi; subst hi
          exact ih1 y hr xs ⟨xs, hxs⟩
        | succ i =>
          simp at hi
          exact ih2 (xs.set i y) ⟨i, a, y, hi, hr, rfl⟩

/-- How a thread with its log moves. -/
def GMove (T : σ → Res ((σ × Option AddEv) ⊕ Unit) → Prop) (y x : Option σ × List AddEv) : Prop :=
  ∃ s, x.1 = some s ∧ ((∃ s' log', Logged T (s, x.2) (.ok (.inl (s', log'))) ∧ y = (some s', log')) ∨ y = (none, x.2))

theorem acc_gmove_none {T : σ → Res ((σ × Option AddEv) ⊕ Unit) → Prop} (log : List AddEv) : Acc (GMove T) (none, log) := by
  refine ⟨_, ?_⟩
  rintro y ⟨s, h, -⟩
  cases h

theorem acc_gmove {T : σ → Res ((σ × Option AddEv) ⊕ Unit) → Prop} {Q : List AddEv → Prop} {x : σ × List AddEv} (h : Sure (Logged T) Q x) :
    Acc (GMove T) (some x.1, x.2) := by
  induction h with
  | @mk x go safe fin next ih =>
    refine ⟨_, ?_⟩
    rintro y ⟨s, h1, h2⟩
    cases h1
    rcases h2 with ⟨s', log', h3, rfl⟩ | rfl
    · exact ih _ h3
    · exact acc_gmove_none _

/-- What is known of a thread. -/
def Good (T : σ → Res ((σ × Option AddEv) ⊕ Unit) → Prop) (Q : List AddEv → Prop) (x : Option σ × List AddEv) : Prop :=
  match x.1 with
  | some s => Sure (Logged T) Q (s, x.2)
  | none => Q x.2

theorem addTo_ok {n : Nat} {b : List ℚ} (hb : b.length = n) {e : AddEv} (he : e.1 < n) :
    ∃ b', addTo b e = .ok b' ∧ b'.length = n ∧ ∀ v < n, b'[v]? = (b[v]?).map fun x => x + if e.1 = v then e.2 else 0 := by
  unfold addTo
  rw [vget_of_lt (by omega), res_bind_ok, vset_of_lt (by omega)]
  refine ⟨_, rfl, by simp [hb], ?_⟩
  intro v hv
  rw [List.getElem?_set]
  by_cases c : e.1 = v
  · subst c
    rw [if_pos rfl, if_pos (by omega), List.getElem?_eq_getElem (by omega)]; simp
  · rw [if_neg c, List.getElem?_eq_getElem (by omega)]; simp [c]

theorem sum_map_set {τ : Type} (w : τ → ℚ) {l : List τ} {i : Nat} {x y : τ} (h : l[i]? = some x) : ((l.set i y).map w).sum = (l.map w).sum + (w y - w x) := by
  induction l generalizing i with
  | nil => simp at h
  | cons a l ih =>
    cases i with
    | zero => simp at h; subst h; simp; ring
    | succ i =>
      rw [List.getElem?_cons_succ] at h
      have := ih h
      rw [List.set_cons_succ, List.map_cons, List.sum_cons, this, List.map_cons, List.sum_cons]; ring

/-- If every thread on its own ends and makes additions as described by its `Q`, then so does the team, and the vector holds all sums. -/
theorem team_sure {T : σ → Res ((σ × Option AddEv) ⊕ Unit) → Prop} {n : Nat} {b0 : Nat → ℚ} {Qs : List (List AddEv → Prop)}
    (hin : ∀ Q ∈ Qs, ∀ log, Q log → ∀ e ∈ log, e.1 < n) (gs : List (Option σ × List AddEv)) (hlen : gs.length = Qs.length)
    (hgood : ∀ (i : Nat) x Q, gs[i]? = some x → Qs[i]? = some Q → Good T Q x) (b : List ℚ) (hb : b.length = n)
    (hsum : ∀ v < n, b[v]? = some (b0 v + (gs.map fun x => logSum x.2 v).sum)) :
    Sure (Team T) (fun r => ∃ logs : List (List AddEv), logs.length = Qs.length ∧ (∀ (i : Nat) log Q, logs[i]? = some log → Qs[i]? = some Q → Q log) ∧
      r.length = n ∧ ∀ v < n, r[v]? = some (b0 v + (logs.map fun l => logSum l v).sum)) (gs.map Prod.fst, b) := by
  have hacc : Acc (Moves (GMove T)) gs := by
    apply acc_moves
    intro x hx
    obtain ⟨i, hi⟩ := List.getElem?_of_mem hx
    have hiQ : i < Qs.length := by rw [← hlen]; exact (List.getElem?_eq_some_iff.1 hi).1
    have := hgood i x _ hi (List.getElem?_eq_getElem hiQ)
    obtain ⟨o, log⟩ := x
    cases o with
    | none => exact acc_gmove_none _
    | some s => exact acc_gmove this
  induction hacc generalizing b with
  | intro gs _ ih =>
    have hQ : ∀ {i : Nat} {x}, gs[i]? = some x → ∃ Q, Qs[i]? = some Q ∧ Q ∈ Qs ∧ Good T Q x := by
      intro i x hi
      have hiQ : i < Qs.length := by rw [← hlen]; exact (List.getElem?_eq_some_iff.1 hi).1
      exact ⟨_, List.getElem?_eq_getElem hiQ, List.getElem_mem _, hgood i x _ hi (List.getElem?_eq_getElem hiQ)⟩
    have hthread : ∀ {i : Nat} {s : σ}, (gs.map Prod.fst)[i]? = some (some s) → ∃ log, gs[i]? = some (some s, log) := by
      intro i s hi
      rw [List.getElem?_map] at hi
      cases hg : gs[i]? with
      | none => rw [hg] at hi; cases hi
      | some x =>
        obtain ⟨o, log⟩ := x
        rw [hg] at hi; cases hi; exact ⟨log, rfl⟩
    have hset : ∀ {i : Nat} {x y : Option σ × List AddEv}, gs[i]? = some x → (∀ Q, Good T Q x → Good T Q y) →
        ∀ (j : Nat) z Q, (gs.set i y)[j]? = some z → Qs[j]? = some Q → Good T Q z := by
      intro i x y hi hxy j z Q hz hQj
      rcases getElem?_set_cases hz with ⟨rfl, rfl⟩ | ⟨hne, h⟩
      · exact hxy Q (hgood _ _ _ hi hQj)
      · exact hgood _ _ _ h hQj
    have move : ∀ {i : Nat} {s s' : σ} {log : List AddEv} {e : Option AddEv}, gs[i]? = some (some s, log) → T s (.ok (.inl (s', e))) →
        ∀ b' : List ℚ, b'.length = n → (∀ v < n, b'[v]? = some (b0 v + (gs.map fun x => logSum x.2 v).sum + logSum e.toList v)) →
        Sure (Team T) (fun r => ∃ logs : List (List AddEv), logs.length = Qs.length ∧ (∀ (i : Nat) log Q, logs[i]? = some log → Qs[i]? = some Q → Q log) ∧
          r.length = n ∧ ∀ v < n, r[v]? = some (b0 v + (logs.map fun l => logSum l v).sum)) ((gs.map Prod.fst).set i (some s'), b') := by
      intro i s s' log e hi hT b' hb' hs'
      have := ih (gs.set i (some s', log ++ e.toList)) ⟨i, _, _, hi, ⟨s, rfl, Or.inl ⟨s', _, .go hT, rfl⟩⟩, rfl⟩ (by simp [hlen])
        (hset hi fun Q hg => by
          cases hg with
          | mk _ _ _ next => exact next _ (.go hT)) b' hb' (by
          intro v hv
          rw [hs' v hv, sum_map_set _ hi, logSum_append]
          congr 1; ring)
      rwa [List.map_set] at this
    refine .mk ?_ ?_ ?_ ?_
    · by_cases hall : ∀ t ∈ gs.map Prod.fst, t = none
      · exact ⟨_, .join hall⟩
      · push Not at hall
        obtain ⟨t, ht, hne⟩ := hall
        obtain ⟨i, hi⟩ := List.getElem?_of_mem ht
        cases t with
        | none => exact absurd rfl hne
        | some s =>
          obtain ⟨log, hg⟩ := hthread hi
          obtain ⟨Q, -, -, hgd⟩ := hQ hg
          cases hgd with
          | mk go safe fin next =>
            obtain ⟨o, ho⟩ := go
            cases ho with
            | @go _ s' _ e h =>
              cases e with
              | none => exact ⟨_, .local hi h⟩
              | some e => exact ⟨_, .add hi h⟩
            | fault h => exact ⟨_, .fault hi h⟩
            | stop h => exact ⟨_, .stop hi h⟩
    · intro f hf
      generalize hx : (gs.map Prod.fst, b) = x at hf
      generalize ho : (Except.error f : Res ((List (Option σ) × List ℚ) ⊕ List ℚ)) = o at hf
      cases hf with
      | «local» hi h => cases ho
      | @add _ _ _ _ _ e hi h =>
        cases hx
        obtain ⟨log, hg⟩ := hthread hi
        obtain ⟨Q, -, hQm, hgd⟩ := hQ hg
        cases hgd with
        | mk _ _ _ next =>
          obtain ⟨r, hr, hq⟩ := (next _ (.go h)).exists_run
          have hp := Logged.prefix hr rfl
          have : e.1 < n := hin Q hQm r hq e (hp.subset (by simp))
          obtain ⟨b', e1, -, -⟩ := addTo_ok hb this
          rw [e1] at ho; cases ho
      | fault hi h =>
        cases hx
        obtain ⟨log, hg⟩ := hthread hi
        obtain ⟨Q, -, hQm, hgd⟩ := hQ hg
        cases hgd with
        | mk _ safe _ _ => exact safe _ (.fault h)
      | stop hi h => cases ho
      | join h => cases ho
    · intro r hr
      generalize hx : (gs.map Prod.fst, b) = x at hr
      generalize ho : (Except.ok (Sum.inr r) : Res ((List (Option σ) × List ℚ) ⊕ List ℚ)) = o at hr
      cases hr with
      | «local» hi h => cases ho
      | add hi h => rename_i ths b1 i s s' e; cases ha : addTo b1 e <;> rw [ha] at ho <;> cases ho
      | fault hi h => cases ho
      | stop hi h => cases ho
      | join h =>
        cases ho
        cases hx
        refine ⟨gs.map Prod.snd, by simp [hlen], ?_, hb, ?_⟩
        · intro i log Q hl hQi
          rw [List.getElem?_map] at hl
          cases hg : gs[i]? with
          | none => rw [hg] at hl; cases hl
          | some x =>
            obtain ⟨o, log'⟩ := x
            rw [hg] at hl; cases hl
            have : o = none := h o (List.mem_map.2 ⟨_, List.mem_of_getElem? hg, rfl⟩)
            subst this
            exact hgood i _ Q hg hQi
        · intro v hv
          rw [hsum v hv, List.map_map]; rfl
    · intro s1 hs1
      generalize hx : (gs.map Prod.fst, b) = x at hs1
      generalize ho : (Except.ok (Sum.inl s1) : Res ((List (Option σ) × List ℚ) ⊕ List ℚ)) = o at hs1
      cases hs1 with
      | «local» hi h =>
        cases ho; cases hx
        obtain ⟨log, hg⟩ := hthread hi
        exact move hg h b hb fun v hv => by rw [hsum v hv]; simp [logSum]
      | @add _ _ _ _ _ e hi h =>
        cases hx
        obtain ⟨log, hg⟩ := hthread hi
        obtain ⟨Q, -, hQm, hgd⟩ := hQ hg
        cases hgd with
        | mk _ _ _ next =>
          obtain ⟨r, hr, hq⟩ := (next _ (.go h)).exists_run
          have hp := Logged.prefix hr rfl
          have : e.1 < n := hin Q hQm r hq e (hp.subset (by simp))
          obtain ⟨b', e1, e2, e3⟩ := addTo_ok hb this
          rw [e1] at ho; cases ho
          exact move hg h b' e2 fun v hv => by
            rw [e3 v hv, hsum v hv]; simp [logSum]
      | fault hi h => cases ho
      | @stop _ _ i s hi h =>
        cases ho; cases hx
        obtain ⟨log, hg⟩ := hthread hi
        have := ih (gs.set i (none, log)) ⟨i, _, _, hg, ⟨s, rfl, Or.inr rfl⟩, rfl⟩ (by simp [hlen])
          (hset hg fun Q hgd => by
            cases hgd with
            | mk _ _ fin _ => exact fin _ (.stop h)) b hb (by
            intro v hv
            rw [hsum v hv, sum_map_set _ hg]; simp)
        rwa [List.map_set] at this
      | join h => cases ho

end NW
