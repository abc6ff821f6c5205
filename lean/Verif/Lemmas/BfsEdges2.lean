import Verif.Model.BfsEdges
import Mathlib.Tactic.Common

/-! # Lemmas: `bfs_edge_range2` and `dijkstra_er` -/

namespace NW

namespace Run

variable {α β σ ρ : Type}

/-- There is an outcome, and every outcome is a fault or a value satisfying `Q`. -/
def Safe (m : Run α) (Q : α → Prop) : Prop := (∃ o, m o) ∧ ∀ a, m (.ok a) → Q a

theorem safe_lift {r : Res α} {Q : α → Prop} (h : ∀ a, r = .ok a → Q a) : Safe (lift r) Q :=
  ⟨⟨r, rfl⟩, fun a ha => h a (Eq.symm ha)⟩

theorem safe_pure {a : α} {Q : α → Prop} (h : Q a) : Safe (Pure.pure a : Run α) Q := safe_lift (fun b e => by cases e; exact h)

theorem Safe.bind {m : Run α} {k : α → Run β} {Q : α → Prop} {Q' : β → Prop} (h : Safe m Q) (hk : ∀ a, Q a → Safe (k a) Q') : Safe (m >>= k) Q' := by
  refine ⟨?_, ?_⟩
  · obtain ⟨o, ho⟩ := h.1
    cases o with
    | ok a =>
      obtain ⟨o', ho'⟩ := (hk a (h.2 a ho)).1
      exact ⟨o', Or.inl ⟨a, ho, ho'⟩⟩
    | error f => exact ⟨_, Or.inr ⟨f, ho, rfl⟩⟩
  · rintro b (⟨a, ha, ho⟩ | ⟨f, _, e⟩)
    · exact (hk a (h.2 a ha)).2 b ho
    · cases e

theorem safe_loopR {body : σ → Run (σ ⊕ ρ)} (I : σ → Prop) (m : σ → Nat) {Q : ρ → Prop}
    (hstep : ∀ s, I s → Safe (body s) fun x => match x with
      | .inl s' => I s' ∧ m s' < m s
      | .inr r => Q r) (s : σ) (hs : I s) : Safe (loopR body s) Q := by
  have key : ∀ x, ∀ s, m s = x → I s → Safe (loopR body s) Q := by
    intro x
    induction x using Nat.strongRecOn with
    | ind x ih =>
      intro s hx hs
      have h := hstep s hs
      refine ⟨?_, ?_⟩
      · obtain ⟨o, ho⟩ := h.1
        match o, ho with
        | .error f, ho => exact ⟨_, LoopR.fault ho⟩
        | .ok (.inr r), ho => exact ⟨_, LoopR.done ho⟩
        | .ok (.inl s'), ho =>
          obtain ⟨h1, h2⟩ := h.2 _ ho
          obtain ⟨o', ho'⟩ := (ih (m s') (hx ▸ h2) s' rfl h1).1
          exact ⟨_, LoopR.step ho ho'⟩
      · intro a ha
        cases ha with
        | done h1 => exact h.2 _ h1
        | step h1 h3 =>
          obtain ⟨h4, h5⟩ := h.2 _ h1
          exact (ih _ (hx ▸ h5) _ rfl h4).2 a h3
  exact key _ s rfl hs

theorem safe_loop {body : σ → Res (σ ⊕ ρ)} (I : σ → Prop) (m : σ → Nat) {Q : ρ → Prop}
    (hstep : ∀ s, I s → ∀ x, body s = .ok x → match x with
      | .inl s' => I s' ∧ m s' < m s
      | .inr r => Q r) (s : σ) (hs : I s) : Safe (loop body s) Q := by
  have key : ∀ x, ∀ s, m s = x → I s → Safe (loop body s) Q := by
    intro x
    induction x using Nat.strongRecOn with
    | ind x ih =>
      intro s hx hs
      have h := hstep s hs
      refine ⟨?_, ?_⟩
      · match hb : body s with
        | .error f => exact ⟨_, Loop.fault hb⟩
        | .ok (.inr r) => exact ⟨_, Loop.done hb⟩
        | .ok (.inl s') =>
          obtain ⟨h1, h2⟩ := h _ hb
          obtain ⟨o', ho'⟩ := (ih (m s') (hx ▸ h2) s' rfl h1).1
          exact ⟨_, Loop.step hb ho'⟩
      · intro a ha
        cases ha with
        | done h1 => exact h _ h1
        | step h1 h3 =>
          obtain ⟨h4, h5⟩ := h _ h1
          exact (ih _ (hx ▸ h5) _ rfl h4).2 a h3
  exact key _ s rfl hs

end Run

namespace BfsEdges
open Spec Run

theorem foldl_mem (l : List (Nat × Nat)) (p : Nat × Nat → Nat × Nat → Prop) [∀ a b, Decidable (p a b)] :
    ∀ x, l.foldl (fun a b => if p a b then b else a) x ∈ x :: l := by
  induction l with
  | nil => simp
  | cons y ys ih =>
    intro x
    rw [List.foldl_cons]
    split
    · exact List.mem_cons_of_mem _ (ih y)
    · rcases List.mem_cons.1 (ih x) with h | h
      · rw [h]; simp
      · exact List.mem_cons_of_mem _ (List.mem_cons_of_mem _ h)

theorem qTop_mem {q : List (Nat × Nat)} {t : Nat × Nat} (h : qTop q = .ok t) : t ∈ q := by
  cases q with
  | nil => cases h
  | cons x xs => cases h; exact foldl_mem xs (fun a b => b.1 < a.1 ∨ (b.1 = a.1 ∧ b.2 < a.2)) x

theorem bind_ok {α β : Type} {r : Res α} {k : α → Res β} {b : β} (h : (r >>= k) = .ok b) : ∃ a, r = .ok a ∧ k a = .ok b := by
  cases r with
  | error f => cases h
  | ok a => exact ⟨a, rfl, h⟩

theorem vget_ok {β : Type} {l : List β} {i : Nat} {x : β} (h : vget l i = .ok x) : i < l.length ∧ l[i]? = some x := by
  have := vget_eq_ok.1 h
  exact ⟨(List.getElem?_eq_some_iff.1 this).1, this⟩

theorem vset_ok {β : Type} {l l' : List β} {i : Nat} {x : β} (h : vset l i x = .ok l') : i < l.length ∧ l' = l.set i x := by
  by_cases c : i < l.length
  · rw [vset_of_lt c] at h; cases h; exact ⟨c, rfl⟩
  · unfold vset at h; rw [if_neg c] at h; cases h

/-- The front of the queue is not black. -/
def TopOk (colors : List Color) (q : List (Nat × Nat)) : Prop := ∃ t, qTop q = .ok t ∧ ∃ c, colors[t.1]? = some c ∧ c ≠ .black

theorem pop_safe (colors : List Color) (q : List (Nat × Nat)) : Safe (Run.loop (popBody colors) q) (fun q' => q' ≠ [] ∧ TopOk colors q') := by
  refine safe_loop (fun _ => True) List.length ?_ q trivial
  intro q _ x hx
  unfold popBody at hx
  obtain ⟨t, ht, hx⟩ := bind_ok hx
  obtain ⟨c, hc, hx⟩ := bind_ok hx
  have hm := qTop_mem ht
  split at hx
  · obtain ⟨q', hq', hx⟩ := bind_ok hx
    unfold qPop at hq'
    rw [ht] at hq'
    cases hx
    cases hq'
    refine ⟨trivial, ?_⟩
    have := List.length_pos_of_mem hm
    rw [List.length_erase_of_mem hm]; omega
  · rename_i hn
    cases hx
    refine ⟨List.ne_nil_of_mem hm, t, ht, c, (vget_ok hc).2, fun e => hn ⟨e, List.ne_nil_of_mem hm⟩⟩

theorem skip2_head {colors : List Color} {l r : List (Nat × Nat)} (h : skip2 colors l = .ok r) :
    ∀ x xs, r = x :: xs → colors[x.1]? = some .white := by
  induction l with
  | nil => cases h; simp
  | cons y ys ih =>
    unfold skip2 at h
    obtain ⟨c, hc, h⟩ := bind_ok h
    split at h
    · rename_i e
      cases h
      rintro x xs e'
      cases e'
      rw [(vget_ok hc).2, e]
    · exact ih h

/-- The number of vertices that are not black, and of those that are white. -/
def alive (colors : List Color) : Nat := colors.countP (· ≠ .black)
def whites (colors : List Color) : Nat := colors.countP (· = .white)

/-- Between increments. -/
def Ready (st : Range2) : Prop := st.queue ≠ [] ∧ ∃ c, st.colors[st.v]? = some c ∧ c ≠ .black

theorem advance_safe (g : Rows Nat) (st : Range2) (h : Ready st) (hd : ∀ x xs, st.rest = x :: xs → st.colors[x.1]? = some .white) :
    Safe (Run.loopR (advanceBody g) st) (fun st' => Ready st' ∧ (∃ x xs, st'.rest = x :: xs ∧ st'.colors[x.1]? = some .white) ∧
      whites st'.colors ≤ whites st.colors) := by
  refine safe_loopR (fun s => Ready s ∧ (∀ x xs, s.rest = x :: xs → s.colors[x.1]? = some .white) ∧ whites s.colors ≤ whites st.colors)
    (fun s => alive s.colors) ?_ st ⟨h, hd, Nat.le_refl _⟩
  rintro s ⟨⟨hq, c, hc, hb⟩, hw, hle⟩
  unfold advanceBody
  by_cases hr : s.rest = []
  · rw [if_pos hr]
    refine (safe_lift (Q := fun l => s.v < s.colors.length ∧ l = s.colors.set s.v .black) fun l hl => vset_ok hl).bind ?_
    rintro cols ⟨hv, rfl⟩
    refine (pop_safe _ _).bind ?_
    rintro q ⟨hq', t, ht, c', hc', hb'⟩
    rw [if_neg hq']
    refine (safe_lift (Q := fun t' => t' = t) fun t' ht' => by rw [ht] at ht'; cases ht'; rfl).bind ?_
    rintro t' rfl
    refine (safe_lift (Q := fun _ => True) fun _ _ => trivial).bind fun row _ => ?_
    refine (safe_lift (Q := fun rest => ∀ x xs, rest = x :: xs → (s.colors.set s.v .black)[x.1]? = some .white) fun r hr => skip2_head hr).bind ?_
    intro rest hrest
    have hcv : s.colors[s.v] = c := by rw [List.getElem?_eq_getElem hv] at hc; exact Option.some.inj hc
    refine safe_pure ⟨⟨⟨hq', c', hc', hb'⟩, hrest, ?_⟩, ?_⟩
    · refine Nat.le_trans ?_ hle
      unfold whites
      rw [List.countP_set hv]
      simp
    · show alive (s.colors.set s.v .black) < alive s.colors
      unfold alive
      rw [List.countP_set hv]
      have hp : 0 < s.colors.countP (· ≠ Color.black) := List.countP_pos_iff.2 ⟨s.colors[s.v], List.getElem_mem hv, by simp [hcv, hb]⟩
      rw [if_pos (by simp [hcv, hb]), if_neg (by simp)]
      omega
  · rw [if_neg hr]
    obtain ⟨x, xs, e⟩ := List.exists_cons_of_ne_nil hr
    exact safe_pure ⟨⟨hq, c, hc, hb⟩, ⟨x, xs, e, hw x xs e⟩, hle⟩

/-- Whether the neighbour the iterator stands on is white. -/
def ahead (st : Range2) : Nat := match st.rest with
  | [] => 1
  | x :: _ => if st.colors[x.1]? = some .white then 0 else 1

theorem next2_safe (g : Rows Nat) (st : Range2) (h : Ready st) (q : List (Nat × Nat)) :
    Safe (next2 g { st with queue := q }) (fun st' => Ready st' ∧ whites st'.colors + ahead st' < whites st.colors + ahead st) := by
  obtain ⟨-, c, hc, hb⟩ := h
  unfold next2
  cases hr : st.rest with
  | nil => exact safe_lift fun a e => by cases e
  | cons x xs =>
    simp only
    refine (safe_lift (Q := fun l => x.1 < st.colors.length ∧ l = st.colors.set x.1 .grey) fun l hl => vset_ok hl).bind ?_
    rintro cols ⟨hx, rfl⟩
    refine (safe_lift (Q := fun rest => ∀ y ys, rest = y :: ys → (st.colors.set x.1 .grey)[y.1]? = some .white) fun r hr => skip2_head hr).bind ?_
    intro rest hrest
    obtain ⟨a, b⟩ := advance_safe g { colors := st.colors.set x.1 .grey, queue := q ++ [(x.1, 0xffffffffffffffff)], v := st.v, rest := rest } (by
      refine ⟨by simp, ?_⟩
      simp only
      rw [List.getElem?_set]
      split
      · rename_i e
        exact ⟨.grey, rfl, by simp⟩
      · exact ⟨c, hc, hb⟩) hrest
    refine ⟨a, fun st' hst' => ?_⟩
    obtain ⟨h1, ⟨y, ys, h2, h3⟩, h4⟩ := b st' hst'
    refine ⟨h1, ?_⟩
    have e1 : ahead st' = 0 := by unfold ahead; rw [h2]; simp [h3]
    have e2 : whites (st.colors.set x.1 .grey) + (if st.colors[x.1]? = some .white then 1 else 0) = whites st.colors := by
      unfold whites
      rw [List.countP_set hx, List.getElem?_eq_getElem hx]
      by_cases hw : st.colors[x.1] = .white
      · have hp : 0 < st.colors.countP (· = Color.white) := List.countP_pos_iff.2 ⟨st.colors[x.1], List.getElem_mem hx, by simp [hw]⟩
        rw [if_pos (by simp [hw]), if_neg (by simp), if_pos (by rw [hw])]
        omega
      · simp [hw]
    have e3 : ahead st = if st.colors[x.1]? = some .white then 0 else 1 := by unfold ahead; rw [hr]
    rw [e1, e3]
    simp only at h4
    split at e2 <;> split <;> first | omega | contradiction

theorem dijkstra_safe (g : Rows Nat) (st : Range2) (dist : List Nat) (h : Ready st) : Safe (Run.loopR (dijkstraBody g) (st, dist)) (fun _ => False) := by
  refine safe_loopR (fun p => Ready p.1) (fun p => whites p.1.colors + ahead p.1) ?_ (st, dist) h
  rintro ⟨s, d⟩ hs
  unfold dijkstraBody
  simp only at hs ⊢
  rw [if_neg hs.1]
  cases hr : s.rest with
  | nil => exact safe_lift fun a e => by cases e
  | cons x xs =>
    simp only
    refine (safe_lift (Q := fun _ => True) fun _ _ => trivial).bind fun du _ => ?_
    refine (safe_lift (Q := fun _ => True) fun _ _ => trivial).bind fun dv _ => ?_
    split
    · refine (safe_lift (Q := fun _ => True) fun _ _ => trivial).bind fun d' _ => ?_
      have := next2_safe g s hs (s.queue ++ [(x.1, du + x.2)])
      rw [hr] at this
      exact this.bind fun st' hst' => safe_pure hst'
    · have := next2_safe g s hs s.queue
      exact this.bind fun st' hst' => safe_pure hst'

end BfsEdges
end NW
