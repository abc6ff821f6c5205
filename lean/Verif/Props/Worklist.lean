import Verif.Model.Worklist
import Verif.Concur
import Verif.Lemmas.ListRes

/-!
# C57, C58: work lists
-/

namespace NW.Worklist

variable {σ W : Type}

/-- C57: at any time the items delivered followed by those in the queue are all items pushed so far, in the order in which they were pushed. -/
theorem worklist_order (body : σ → W → σ × List W) (init : List W) (u : σ) {st : St σ W} (h : During (round body) (start init u) st) :
    st.delivered ++ st.q = init ++ st.pushed := by
  refine Steps.inv (fun st => st.delivered ++ st.q = init ++ st.pushed) ?_ (by simp [start]) h
  intro s s' hs hst
  unfold round at hst
  cases hq : s.q with
  | nil => rw [hq] at hst; cases hst
  | cons x q =>
    rw [hq] at hst hs
    simp only [List.cons_append] at hst
    cases hst
    simp only [List.append_assoc, List.singleton_append]
    rw [← List.append_assoc init, ← hs]
    simp

/-- C57: the loop never faults, and when it ends every item has been delivered, once, in push order, and none is left. -/
theorem worklist_complete (body : σ → W → σ × List W) (init : List W) (u : σ) {o : Res (St σ W)} (h : Loop (round body) (start init u) o) :
    ∃ st, o = .ok st ∧ st.delivered = init ++ st.pushed ∧ st.q = [] := by
  obtain ⟨s', h1, h2⟩ := During.of_loop h
  have hord := worklist_order body init u h1
  rcases h2 with ⟨r, rfl, hb⟩ | ⟨f, rfl, hb⟩
  · unfold round at hb
    cases hq : s'.q with
    | nil =>
      rw [hq] at hb; cases hb
      rw [hq] at hord
      exact ⟨_, rfl, by simpa using hord, hq⟩
    | cons x q => rw [hq] at hb; simp only [List.cons_append] at hb; cases hb
  · unfold round at hb
    cases hq : s'.q with
    | nil => rw [hq] at hb; cases hb
    | cons x q => rw [hq] at hb; simp only [List.cons_append] at hb; cases hb

/-- C57: the loop ends if the body pushes only finitely many items. -/
theorem worklist_ends (body : σ → W → σ × List W) (init : List W) (u : σ) (N : Nat) (hN : ∀ st, During (round body) (start init u) st → st.pushed.length ≤ N) :
    ∃ st, Loop (round body) (start init u) (.ok st) := by
  refine (fun hstep => ?_) (?_ : ∀ s, During (round body) (start init u) s → (∃ s', round body s = .ok (.inl s') ∧ During (round body) (start init u) s' ∧
    init.length + N - s'.delivered.length < init.length + N - s.delivered.length) ∨ ∃ r, round body s = .ok (.inr r))
  · obtain ⟨s', r, -, -, h⟩ := Loop.total _ (fun st : St σ W => init.length + N - st.delivered.length) hstep (start init u) (.refl _)
    exact ⟨r, h⟩
  · intro s hs
    have hord := worklist_order body init u hs
    have hlen := congrArg List.length hord
    rw [List.length_append, List.length_append] at hlen
    have := hN s hs
    cases hq : s.q with
    | nil => right; exact ⟨s, by unfold round; rw [hq]; rfl⟩
    | cons x q =>
      left
      rw [hq, List.length_cons] at hlen
      have hb : round body s = .ok (.inl { q := q ++ (body s.user x).2, user := (body s.user x).1, delivered := s.delivered ++ [x], pushed := s.pushed ++ (body s.user x).2 }) := by
        unfold round; rw [hq]; rfl
      refine ⟨_, hb, .tail hs hb, ?_⟩
      simp only [List.length_append, List.length_singleton]
      omega

/-- The loop over `[3, 5]` with a body that pushes `x - 2` for every `x ≥ 2`. -/
example : ∃ st, Loop (round fun (n : Nat) x => (n + 1, if x ≥ 2 then [x - 2] else [])) (start [3, 5] 0) (.ok st) ∧ st.delivered = [3, 5, 1, 3, 1] ∧ st.user = 5 :=
  ⟨_, Loop.of_runFuel (n := 10) rfl, by decide⟩

/-! ## The concurrent work lists -/

theorem tRound_inv (dummy : W) (body : σ → W → σ × List W) (init : List W) (u : σ) (hne : init ≠ []) {st : TSt σ W}
    (h : During (tRound dummy body) (tStart dummy init u) st) : st.delivered ++ st.item :: st.q = init ++ st.pushed := by
  refine Steps.inv (fun st => st.delivered ++ st.item :: st.q = init ++ st.pushed) ?_ ?_ h
  · intro s s' hs hst
    unfold tRound at hst
    cases hq : s.q with
    | nil => rw [hq] at hst; cases hst
    | cons x q =>
      rw [hq] at hst hs
      simp only [List.isEmpty_cons, Bool.false_eq_true, if_false, List.cons_append, tryPop] at hst
      cases hst
      simp only [List.append_assoc, List.singleton_append]
      rw [← List.append_assoc init, ← hs]
      simp
  · cases init with
    | nil => exact absurd rfl hne
    | cons x q => simp [tStart, tryPop]

/-- C58 (what holds).  Missing: the last item.  When the loop over a `tbbworklist_range` ends, all items pushed but the very last have been delivered, in push order. -/
theorem tbbworklist_partial (dummy : W) (body : σ → W → σ × List W) (init : List W) (u : σ) (hne : init ≠ []) {o : Res (TSt σ W)}
    (h : Loop (tRound dummy body) (tStart dummy init u) o) : ∃ st, o = .ok st ∧ st.delivered ++ [st.item] = init ++ st.pushed := by
  obtain ⟨s', h1, h2⟩ := During.of_loop h
  have hord := tRound_inv dummy body init u hne h1
  rcases h2 with ⟨r, rfl, hb⟩ | ⟨f, rfl, hb⟩
  · unfold tRound at hb
    cases hq : s'.q with
    | nil =>
      rw [hq] at hb hord; cases hb
      exact ⟨_, rfl, hord⟩
    | cons x q => rw [hq] at hb; cases hb
  · unfold tRound at hb
    cases hq : s'.q with
    | nil => rw [hq] at hb; cases hb
    | cons x q => rw [hq] at hb; cases hb

/-- C58 fails: iterating any non-empty list without pushing delivers all items except the last one. -/
theorem tbbworklist_loses_last (dummy : W) (items : List W) (x : W) :
    ∃ st, Loop (tRound dummy fun (_ : Unit) _ => ((), [])) (tStart dummy (items ++ [x]) ()) (.ok st) ∧ st.delivered = items := by
  refine (fun hstep => ?_) (?_ : ∀ s, True → (∃ s', tRound dummy (fun (_ : Unit) _ => ((), [])) s = .ok (.inl s') ∧ True ∧ s'.q.length < s.q.length) ∨
    ∃ r, tRound dummy (fun (_ : Unit) _ => ((), [])) s = .ok (.inr r))
  · obtain ⟨s', r, -, -, h⟩ := Loop.total _ (fun st : TSt Unit W => st.q.length) hstep (tStart dummy (items ++ [x]) ()) trivial
    refine ⟨r, h, ?_⟩
    obtain ⟨st, e, he⟩ := tbbworklist_partial dummy _ (items ++ [x]) () (by simp) h
    cases e
    have hp : r.pushed = [] := by
      obtain ⟨s', h1, h2⟩ := During.of_loop h
      have : s'.pushed = [] := by
        refine Steps.inv (fun st : TSt Unit W => st.pushed = []) ?_ rfl h1
        intro s t hs hst
        unfold tRound at hst
        split at hst
        · cases hst
        · cases hst; simpa using hs
      rcases h2 with ⟨r', e, hb⟩ | ⟨f, e, -⟩
      · cases e
        unfold tRound at hb
        split at hb
        · cases hb; exact this
        · cases hb
      · cases e
    rw [hp, List.append_nil] at he
    exact (List.append_inj' he rfl).1
  · intro s _
    unfold tRound
    cases hq : s.q with
    | nil => right; exact ⟨s, rfl⟩
    | cons x q => left; exact ⟨_, rfl, trivial, by simp [tryPop]⟩

theorem popFirst_perm (dummy : W) (bs : List (List W)) (h : ¬ bs.all List.isEmpty = true) :
    ((popFirst dummy bs).1 :: (popFirst dummy bs).2.flatten).Perm bs.flatten := by
  induction bs with
  | nil => simp at h
  | cons b bs ih =>
    cases b with
    | nil =>
      simp only [popFirst, List.flatten_cons, List.nil_append]
      exact ih (by simpa using h)
    | cons x q => simp [popFirst]

theorem pushLevel_ok (bs : List (List W)) (x : W × Nat) : ∃ bs', pushLevel bs x = .ok bs' ∧ bs'.flatten.Perm (bs.flatten ++ [x.1]) := by
  unfold pushLevel
  have key : ∀ (b : List (List W)) (i : Nat), i < b.length → ∃ bs', (vget b i >>= fun q => vset b i (q ++ [x.1])) = .ok bs' ∧ bs'.flatten.Perm (b.flatten ++ [x.1]) := by
    intro b i hi
    rw [vget_of_lt hi, res_bind_ok, vset_of_lt hi]
    refine ⟨_, rfl, ?_⟩
    clear bs
    induction b generalizing i with
    | nil => simp at hi
    | cons q b ih =>
      cases i with
      | zero =>
        simp only [List.set_cons_zero, List.flatten_cons, List.getElem_cons_zero, List.append_assoc]
        exact List.Perm.append_left _ List.perm_append_comm
      | succ i =>
        simp only [List.set_cons_succ, List.flatten_cons, List.getElem_cons_succ, List.append_assoc]
        exact List.Perm.append_left _ (ih i (by simpa using hi))
  dsimp only
  split
  · rename_i hlt
    obtain ⟨bs', h1, h2⟩ := key (bs ++ List.replicate (x.2 + 1 - bs.length) []) x.2 (by simp; omega)
    refine ⟨bs', h1, h2.trans ?_⟩
    rw [List.flatten_append, List.flatten_replicate_nil]; simp
  · exact key bs x.2 (by omega)

theorem pushAll_ok (bs : List (List W)) (xs : List (W × Nat)) : ∃ bs', xs.foldlM pushLevel bs = .ok bs' ∧ bs'.flatten.Perm (bs.flatten ++ xs.map Prod.fst) := by
  induction xs generalizing bs with
  | nil => exact ⟨bs, rfl, by simp⟩
  | cons x xs ih =>
    obtain ⟨b1, h1, h2⟩ := pushLevel_ok bs x
    obtain ⟨b2, h3, h4⟩ := ih b1
    refine ⟨b2, by rw [List.foldlM_cons, h1, res_bind_ok, h3], h4.trans ?_⟩
    rw [List.map_cons, ← List.singleton_append, ← List.append_assoc]
    exact h2.append_right _

theorem all_isEmpty_iff (bs : List (List W)) : bs.all List.isEmpty = true ↔ bs.flatten = [] := by
  rw [List.all_eq_true, List.flatten_eq_nil_iff]
  simp

/-- C58 (what holds).  Missing: one item.  The loop over a `tbbworklist_range2` never faults; when it ends, exactly one of the items pushed has not been delivered (the one held by the iterator). -/
theorem tbbworklist2_partial (dummy : W) (body : σ → W → σ × List (W × Nat)) (n : Nat) (init : List (W × Nat)) (u : σ) (hne : init ≠ []) :
    ∃ bs, fillLevels n init = .ok bs ∧ ∀ o, Loop (bRound dummy body) (bStart dummy bs u) o →
      ∃ st, o = .ok st ∧ (st.delivered ++ [st.item]).Perm ((init ++ st.pushed).map Prod.fst) := by
  obtain ⟨bs, h1, h2⟩ := pushAll_ok (List.replicate n []) init
  refine ⟨bs, h1, fun o hl => ?_⟩
  rw [List.flatten_replicate_nil, List.nil_append] at h2
  have hbs : ¬ bs.all List.isEmpty = true := by
    rw [all_isEmpty_iff]
    intro e
    rw [e] at h2
    have := h2.length_eq
    cases init with
    | nil => exact hne rfl
    | cons x l => simp at this
  have hinv : ∀ st, During (bRound dummy body) (bStart dummy bs u) st → (st.delivered ++ st.item :: st.buckets.flatten).Perm ((init ++ st.pushed).map Prod.fst) := by
    intro st hst
    refine Steps.inv (fun st : BSt σ W => (st.delivered ++ st.item :: st.buckets.flatten).Perm ((init ++ st.pushed).map Prod.fst)) ?_ ?_ hst
    · intro s s' hs hb
      unfold bRound at hb
      split at hb
      · cases hb
      · rename_i hne'
        obtain ⟨b2, h3, h4⟩ := pushAll_ok s.buckets (body s.user s.item).2
        dsimp only at hb
        rw [h3, res_bind_ok] at hb
        cases hb
        have h5 : ¬ b2.all List.isEmpty = true := by
          rw [all_isEmpty_iff]
          intro e
          rw [e] at h4
          have h6 := h4.length_eq
          rw [List.length_append] at h6
          apply hne'
          rw [all_isEmpty_iff, ← List.length_eq_zero_iff]
          simp only [List.length_nil] at h6
          omega
        have h6 := (popFirst_perm dummy b2 h5).trans h4
        dsimp only
        rw [List.append_assoc, List.singleton_append]
        refine ((h6.cons s.item).append_left s.delivered).trans ?_
        rw [← List.append_assoc init, List.map_append]
        refine List.Perm.trans ?_ (hs.append_right _)
        simp
    · exact (popFirst_perm dummy bs hbs).trans (by simpa [bStart] using h2)
  obtain ⟨s', h3, h4⟩ := During.of_loop hl
  have h5 := hinv s' h3
  rcases h4 with ⟨r, rfl, hb⟩ | ⟨f, rfl, hb⟩
  · unfold bRound at hb
    split at hb
    · rename_i he
      cases hb
      rw [(all_isEmpty_iff _).1 he] at h5
      exact ⟨_, rfl, h5⟩
    · obtain ⟨b2, h6, -⟩ := pushAll_ok s'.buckets (body s'.user s'.item).2
      dsimp only at hb
      rw [h6, res_bind_ok] at hb
      cases hb
  · unfold bRound at hb
    split at hb
    · cases hb
    · obtain ⟨b2, h6, -⟩ := pushAll_ok s'.buckets (body s'.user s'.item).2
      dsimp only at hb
      rw [h6, res_bind_ok] at hb
      cases hb

/-- C58 fails for `tbbworklist_range2` too: a list with a single item delivers nothing. -/
theorem tbbworklist2_single (dummy x : W) (level : Nat) (body : σ → W → σ × List (W × Nat)) (n : Nat) (u : σ) :
    ∃ bs, fillLevels n [(x, level)] = .ok bs ∧ ∃ st, Loop (bRound dummy body) (bStart dummy bs u) (.ok st) ∧ st.delivered = [] := by
  obtain ⟨bs, h1, h2⟩ := pushAll_ok (List.replicate n []) [(x, level)]
  refine ⟨bs, h1, bStart dummy bs u, .done ?_, rfl⟩
  rw [List.flatten_replicate_nil, List.nil_append] at h2
  have hbs : ¬ bs.all List.isEmpty = true := by
    rw [all_isEmpty_iff]
    intro e
    rw [e] at h2
    have := h2.length_eq
    simp at this
  have h3 := ((popFirst_perm dummy bs hbs).trans h2).length_eq
  have : (popFirst dummy bs).2.all List.isEmpty = true := by
    rw [all_isEmpty_iff, ← List.length_eq_zero_iff]
    simpa using h3
  unfold bRound bStart
  rw [if_pos this]
  rfl

/-- The last item, 7, is not delivered. -/
example : ∃ st, Loop (tRound 0 fun (_ : Unit) _ => ((), [])) (tStart 0 [5, 6, 7] ()) (.ok st) ∧ st.delivered = [5, 6] :=
  tbbworklist_loses_last 0 [5, 6] 7

/-- Items 5, 6 and 7 at the levels 2, 0 and 0: the iterator delivers 6 and 7, lowest level first, and 5 is lost. -/
example : ∃ bs, fillLevels 3 [(5, 2), (6, 0), (7, 0)] = .ok bs ∧ ∃ st, Loop (bRound 0 fun (_ : Unit) _ => ((), [])) (bStart 0 bs ()) (.ok st) ∧
    st.delivered = [6, 7] := ⟨_, rfl, _, Loop.of_runFuel (n := 10) rfl, by decide⟩

/-! ## C70: buckets in order -/

/-- The items of bucket `i` are those pushed at level `i`. -/
def Levels (lvl : W → Nat) (bs : List (List W)) : Prop := ∀ (i : Nat) q, bs[i]? = some q → ∀ x ∈ q, lvl x = i

theorem Levels.push {lvl : W → Nat} {bs bs' : List (List W)} (h : Levels lvl bs) {x : W × Nat} (hx : lvl x.1 = x.2) (hp : pushLevel bs x = .ok bs') : Levels lvl bs' := by
  have key : ∀ b : List (List W), Levels lvl b → ∀ b', (vget b x.2 >>= fun q => vset b x.2 (q ++ [x.1])) = .ok b' → Levels lvl b' := by
    intro b hb b' hb'
    cases hq : vget b x.2 with
    | error f => rw [hq] at hb'; cases hb'
    | ok q =>
      rw [hq, res_bind_ok] at hb'
      obtain ⟨hlt, rfl⟩ := List.getElem?_eq_some_iff.1 (vget_eq_ok.1 hq)
      rw [vset_of_lt hlt] at hb'
      cases hb'
      intro i q' hq' y hy
      rcases getElem?_set_cases hq' with ⟨rfl, rfl⟩ | ⟨hne, h'⟩
      · rcases List.mem_append.1 hy with hy | hy
        · exact hb _ _ (List.getElem?_eq_getElem hlt) y hy
        · rw [List.mem_singleton] at hy; rw [hy, hx]
      · exact hb i q' h' y hy
  unfold pushLevel at hp
  dsimp only at hp
  split at hp
  · refine key _ ?_ _ hp
    intro i q hq y hy
    rw [List.getElem?_append] at hq
    split at hq
    · exact h i q hq y hy
    · rw [List.getElem?_replicate] at hq
      split at hq
      · cases hq; cases hy
      · cases hq
  · exact key _ h _ hp

theorem Levels.pushAll {lvl : W → Nat} (xs : List (W × Nat)) {bs bs' : List (List W)} (h : Levels lvl bs) (hx : ∀ x ∈ xs, lvl x.1 = x.2)
    (hp : xs.foldlM pushLevel bs = .ok bs') : Levels lvl bs' := by
  induction xs generalizing bs with
  | nil => cases hp; exact h
  | cons x xs ih =>
    obtain ⟨b1, h1, -⟩ := pushLevel_ok bs x
    rw [List.foldlM_cons, h1, res_bind_ok] at hp
    exact ih (h.push (hx x (by simp)) h1) (fun y hy => hx y (by simp [hy])) hp

theorem Levels.pop {lvl : W → Nat} (dummy : W) (bs : List (List W)) : ∀ k, (∀ (i : Nat) q, bs[i]? = some q → ∀ x ∈ q, lvl x = i + k) →
    (∀ (i : Nat) q, (popFirst dummy bs).2[i]? = some q → ∀ x ∈ q, lvl x = i + k) ∧
    (¬ bs.all List.isEmpty = true → k ≤ lvl (popFirst dummy bs).1 ∧ ∀ x ∈ (popFirst dummy bs).2.flatten, lvl (popFirst dummy bs).1 ≤ lvl x) := by
  induction bs with
  | nil => intro k h; exact ⟨h, fun hne => absurd rfl hne⟩
  | cons q bs ih =>
    intro k h
    cases q with
    | nil =>
      obtain ⟨h1, h2⟩ := ih (k + 1) (fun i q hq x hx => by
        have := h (i + 1) q (by simpa using hq) x hx; omega)
      unfold popFirst
      refine ⟨?_, ?_⟩
      · intro i q hq x hx
        cases i with
        | zero => simp at hq; subst hq; cases hx
        | succ i =>
          have := h1 i q (by simpa using hq) x hx
          omega
      · intro hne
        obtain ⟨h3, h4⟩ := h2 (by simpa using hne)
        exact ⟨by dsimp only; omega, by simpa using h4⟩
    | cons x q =>
      have hx : lvl x = k := by have := h 0 (x :: q) rfl x (by simp); omega
      unfold popFirst
      refine ⟨?_, ?_⟩
      · intro i q' hq y hy
        cases i with
        | zero => simp at hq; subst hq; exact h 0 (x :: q) rfl y (by simp [hy])
        | succ i => exact h (i + 1) q' (by simpa using hq) y hy
      · intro _
        refine ⟨by dsimp only; omega, ?_⟩
        dsimp only
        intro y hy
        rw [List.flatten_cons] at hy
        rcases List.mem_append.1 hy with hy | hy
        · have := h 0 (x :: q) rfl y (by simp [hy]); omega
        · obtain ⟨q', hq', hy⟩ := List.mem_flatten.1 hy
          obtain ⟨i, hi⟩ := List.getElem?_of_mem hq'
          have := h (i + 1) q' (by simpa using hi) y hy
          omega

/-- C70.  If every item is pushed at its level and the body pushes no item of a lower level than the one it is given, the items of a `tbbworklist_range2` are delivered in
the order of their levels, and so is the one that is lost. -/
theorem tbbworklist2_in_order (lvl : W → Nat) (dummy : W) (body : σ → W → σ × List (W × Nat)) (n : Nat) (init : List (W × Nat)) (u : σ) (hne : init ≠ [])
    (hinit : ∀ x ∈ init, lvl x.1 = x.2) (hbody : ∀ s w, ∀ x ∈ (body s w).2, lvl x.1 = x.2 ∧ lvl w ≤ x.2) :
    ∃ bs, fillLevels n init = .ok bs ∧ ∀ st, During (bRound dummy body) (bStart dummy bs u) st → (st.delivered ++ [st.item]).Pairwise fun a b => lvl a ≤ lvl b := by
  obtain ⟨bs, h1, h2⟩ := pushAll_ok (List.replicate n []) init
  refine ⟨bs, h1, fun st hst => ?_⟩
  rw [List.flatten_replicate_nil, List.nil_append] at h2
  have hbs : ¬ bs.all List.isEmpty = true := by
    rw [all_isEmpty_iff]
    intro e
    rw [e] at h2
    have := h2.length_eq
    cases init with
    | nil => exact hne rfl
    | cons x l => simp at this
  have hl : Levels lvl bs := Levels.pushAll init (fun i q hq x hx => by
    rw [List.getElem?_replicate] at hq
    split at hq
    · cases hq; cases hx
    · cases hq) hinit h1
  have hinv : (st.delivered ++ [st.item]).Pairwise (fun a b => lvl a ≤ lvl b) ∧ Levels lvl st.buckets ∧ ∀ y ∈ st.buckets.flatten, lvl st.item ≤ lvl y := by
    refine Steps.inv (fun st : BSt σ W => (st.delivered ++ [st.item]).Pairwise (fun a b => lvl a ≤ lvl b) ∧ Levels lvl st.buckets ∧ ∀ y ∈ st.buckets.flatten, lvl st.item ≤ lvl y)
      ?_ ?_ hst
    · rintro s s' ⟨i1, i2, i3⟩ hb
      unfold bRound at hb
      split at hb
      · cases hb
      · rename_i hne'
        obtain ⟨b2, h3, h4⟩ := pushAll_ok s.buckets (body s.user s.item).2
        dsimp only at hb
        rw [h3, res_bind_ok] at hb
        cases hb
        have h5 : ¬ b2.all List.isEmpty = true := by
          rw [all_isEmpty_iff]
          intro e
          rw [e] at h4
          have h6 := h4.length_eq
          rw [List.length_append] at h6
          apply hne'
          rw [all_isEmpty_iff, ← List.length_eq_zero_iff]
          simp only [List.length_nil] at h6
          omega
        have h6 := popFirst_perm dummy b2 h5
        have hlev : Levels lvl b2 := i2.pushAll _ (fun x hx => (hbody s.user s.item x hx).1) h3
        obtain ⟨h7, h8⟩ := Levels.pop dummy b2 0 hlev
        have hge : ∀ y ∈ b2.flatten, lvl s.item ≤ lvl y := by
          intro y hy
          rcases List.mem_append.1 (h4.mem_iff.1 hy) with hy | hy
          · exact i3 y hy
          · obtain ⟨x, hx, rfl⟩ := List.mem_map.1 hy
            have := hbody s.user s.item x hx
            omega
        refine ⟨?_, h7, (h8 h5).2⟩
        dsimp only
        rw [List.pairwise_append]
        refine ⟨i1, by simp, ?_⟩
        intro a ha b hb
        rw [List.mem_singleton] at hb
        subst hb
        have hpop : lvl s.item ≤ lvl (popFirst dummy b2).1 := hge _ (h6.mem_iff.1 (by simp))
        rcases List.mem_append.1 ha with ha | ha
        · exact Nat.le_trans ((List.pairwise_append.1 i1).2.2 a ha s.item (by simp)) hpop
        · rw [List.mem_singleton] at ha; subst ha; exact hpop
    · obtain ⟨h7, h8⟩ := Levels.pop dummy bs 0 hl
      exact ⟨by simp [bStart], h7, (h8 hbs).2⟩
  exact hinv.1

/-- Non-vacuity: the items are their own levels, and processing 1 pushes 1 + 2. -/
example : ∃ bs, fillLevels 2 [(5, 5), (1, 1), (4, 4)] = .ok bs ∧
    ∃ st, Loop (bRound 0 fun (_ : Unit) w => ((), if w = 1 then [(3, 3)] else [])) (bStart 0 bs ()) (.ok st) ∧ st.delivered = [1, 3, 4] :=
  ⟨_, rfl, _, Loop.of_runFuel (n := 10) rfl, by decide⟩

end NW.Worklist
