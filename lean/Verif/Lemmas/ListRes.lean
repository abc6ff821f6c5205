import Verif.Base

/-! Helper lemmas on checked access and monadic maps. -/

namespace NW

theorem mapM_ok_of_forall {α β : Type} {l : List α} {f : α → Res β} {g : α → β}
    (h : ∀ x ∈ l, f x = .ok (g x)) : l.mapM f = .ok (l.map g) := by
  induction l with
  | nil => rfl
  | cons x xs ih =>
    rw [List.mapM_cons, h x (by simp), res_bind_ok, ih (fun y hy => h y (by simp [hy]))]
    rfl

theorem mapM_range_eq {β : Type} {n : Nat} {f : Nat → Res β} {l : List β} (hn : l.length = n)
    (h : ∀ k (hk : k < n), f k = .ok (l[k]'(hn ▸ hk))) : (List.range n).mapM f = .ok l := by
  subst hn
  cases l with
  | nil => rfl
  | cons x xs =>
    rw [mapM_ok_of_forall (g := fun k => (x :: xs).getD k x)]
    · congr 1
      apply List.ext_getElem
      · simp
      · intro i h1 h2
        simp only [List.getElem_map, List.getElem_range]
        rw [List.getD_eq_getElem?_getD, List.getElem?_eq_getElem h2]; rfl
    · intro k hk
      have hk' : k < (x :: xs).length := by simpa using hk
      rw [h k hk', List.getD_eq_getElem?_getD, List.getElem?_eq_getElem hk']
      rfl

theorem mapM_ok_length {α β : Type} {l : List α} {f : α → Res β} {r : List β}
    (h : l.mapM f = .ok r) : r.length = l.length := by
  induction l generalizing r with
  | nil => cases h; rfl
  | cons x xs ih =>
    rw [List.mapM_cons] at h
    cases hx : f x with
    | error e => rw [hx] at h; cases h
    | ok y =>
      rw [hx, res_bind_ok] at h
      cases hxs : xs.mapM f with
      | error e => rw [hxs] at h; cases h
      | ok ys =>
        rw [hxs, res_bind_ok] at h
        cases h
        simp [ih hxs]

theorem mapM_ok_getElem {α β : Type} {l : List α} {f : α → Res β} {r : List β}
    (h : l.mapM f = .ok r) (i : Nat) (hi : i < l.length) :
    f l[i] = .ok (r[i]'(mapM_ok_length h ▸ hi)) := by
  induction l generalizing r i with
  | nil => simp at hi
  | cons x xs ih =>
    have h0 := h
    rw [List.mapM_cons] at h
    cases hx : f x with
    | error e => rw [hx] at h; cases h
    | ok y =>
      rw [hx, res_bind_ok] at h
      cases hxs : xs.mapM f with
      | error e => rw [hxs] at h; cases h
      | ok ys =>
        rw [hxs, res_bind_ok] at h
        cases h
        cases i with
        | zero => simpa using hx
        | succ i => simpa using ih hxs i (by simpa using hi)

/-- A loop over `0 .. n-1` whose state after `i` iterations is `F i`. -/
theorem foldlM_range_eq {σ : Type} {n : Nat} {f : σ → Nat → Res σ} (F : Nat → σ)
    (h : ∀ i, i < n → f (F i) i = .ok (F (i + 1))) : (List.range n).foldlM f (F 0) = .ok (F n) := by
  induction n with
  | zero => rfl
  | succ n ih =>
    rw [List.range_succ, List.foldlM_append, ih (fun i hi => h i (by omega)), res_bind_ok]
    simp [List.foldlM_cons, h n (by omega)]

/-- Invariant rule for a loop over `0 .. n-1`. -/
theorem foldlM_range_inv {σ : Type} {n : Nat} {f : σ → Nat → Res σ} {s : σ} (P : Nat → σ → Prop) (h0 : P 0 s)
    (h : ∀ i, i < n → ∀ s, P i s → ∃ s', f s i = .ok s' ∧ P (i + 1) s') :
    ∃ s', (List.range n).foldlM f s = .ok s' ∧ P n s' := by
  induction n with
  | zero => exact ⟨s, rfl, h0⟩
  | succ n ih =>
    obtain ⟨s1, e1, p1⟩ := ih (fun i hi => h i (by omega))
    obtain ⟨s2, e2, p2⟩ := h n (by omega) s1 p1
    exact ⟨s2, by rw [List.range_succ, List.foldlM_append, e1, res_bind_ok]; simp [List.foldlM_cons, e2], p2⟩

/-- Invariant rule for a loop over a list; `P done s`. -/
theorem foldlM_list_inv {β σ : Type} {l : List β} {f : σ → β → Res σ} {s : σ} (P : List β → σ → Prop) (h0 : P [] s)
    (h : ∀ pre x post, l = pre ++ x :: post → ∀ s, P pre s → ∃ s', f s x = .ok s' ∧ P (pre ++ [x]) s') :
    ∃ s', l.foldlM f s = .ok s' ∧ P l s' := by
  suffices H : ∀ (post pre : List β) (s : σ), l = pre ++ post → P pre s →
      ∃ s', post.foldlM f s = .ok s' ∧ P l s' by
    exact H l [] s rfl h0
  intro post
  induction post with
  | nil => intro pre s hl hp; exact ⟨s, rfl, by rw [hl]; simpa using hp⟩
  | cons x post ih =>
    intro pre s hl hp
    obtain ⟨s1, e1, p1⟩ := h pre x post hl s hp
    obtain ⟨s2, e2, p2⟩ := ih (pre ++ [x]) s1 (by simp [hl]) p1
    exact ⟨s2, by rw [List.foldlM_cons, e1, res_bind_ok, e2], p2⟩

/-- A failing iteration makes the whole loop fail. -/
theorem foldlM_error_at {β σ : Type} {f : σ → β → Res σ} {pre post : List β} {x : β} {s s1 : σ} {e : Fault}
    (h1 : pre.foldlM f s = .ok s1) (h2 : f s1 x = .error e) :
    (pre ++ x :: post).foldlM f s = .error e := by
  rw [List.foldlM_append, h1, res_bind_ok, List.foldlM_cons, h2]; rfl

end NW
